import Verif.Attrs.Spec

/-! # What each operation does to the attributes -/

namespace Verif.Attrs

open Verif
open Verif.Namespace (Name Ent Errno Ret dot dotdot lookup erase put dec)

variable {now : Nat → Time} {h : Nat → Nat} {s t u : FS}

theorem modInode_some {i : Nat} {f : Inode → Option Inode} (hm : modInode s i f = some t) :
    ∃ x y, s.inodes.get i = some x ∧ f x = some y ∧
      t = { s with inodes := s.inodes.insert i y } := by
  unfold modInode at hm
  split at hm
  · cases hm
  · rename_i x hx
    split at hm
    · cases hm
    · rename_i y hy
      injection hm with hm
      exact ⟨x, y, hx, hy, hm.symm⟩

/-- `y` is `x` with a modification time of `now` if `M`, a change time of `now` if `C`, and
possibly another link count and space. -/
structure Stamp (now : Time) (M C : Prop) (x y : Inode) : Prop where
  size : y.size = x.size
  flags : y.flags = x.flags
  atime : y.atime = x.atime
  mtime : (M → y.mtime = now) ∧ (¬ M → y.mtime = x.mtime)
  ctime : (C → y.ctime = now) ∧ (¬ C → y.ctime = x.ctime)
  birthtime : y.birthtime = x.birthtime
  uid : y.uid = x.uid
  gid : y.gid = x.gid
  perm : y.perm = x.perm
  ftype : y.ftype = x.ftype

/-- Every file of `t` was a file of `s`; those with `M` have been stamped modified, those with
`C` changed. -/
def Stamped (now : Nat → Time) (M C : Nat → Prop) (s t : FS) : Prop :=
  ∀ i y, t.inodes.get i = some y → ∃ x, s.inodes.get i = some x ∧ Stamp (now i) (M i) (C i) x y

theorem Stamp.refl (now : Time) (x : Inode) : Stamp now False False x x :=
  ⟨rfl, rfl, rfl, ⟨False.elim, fun _ => rfl⟩, ⟨False.elim, fun _ => rfl⟩, rfl, rfl, rfl, rfl, rfl⟩

theorem Stamp.congr {now : Time} {M C M' C' : Prop} {x y : Inode} (h : Stamp now M C x y)
    (hM : M ↔ M') (hC : C ↔ C') : Stamp now M' C' x y := by
  rw [← propext hM, ← propext hC]; exact h

theorem Stamped.congr {M C M' C' : Nat → Prop} (hs : Stamped now M C s t)
    (hM : ∀ i, M i ↔ M' i) (hC : ∀ i, C i ↔ C' i) : Stamped now M' C' s t := by
  intro i y hy
  obtain ⟨x, hx, hxy⟩ := hs i y hy
  exact ⟨x, hx, hxy.congr (hM i) (hC i)⟩

theorem Stamped.trans {M C M' C' : Nat → Prop} (h1 : Stamped now M C s t)
    (h2 : Stamped now M' C' t u) :
    Stamped now (fun i => M i ∨ M' i) (fun i => C i ∨ C' i) s u := by
  intro i z hz
  obtain ⟨y, hy, b⟩ := h2 i z hz
  obtain ⟨x, hx, a⟩ := h1 i y hy
  refine ⟨x, hx, b.size.trans a.size, b.flags.trans a.flags, b.atime.trans a.atime, ⟨?_, ?_⟩,
    ⟨?_, ?_⟩, b.birthtime.trans a.birthtime, b.uid.trans a.uid, b.gid.trans a.gid,
    b.perm.trans a.perm, b.ftype.trans a.ftype⟩
  · intro hm
    by_cases hm' : M' i
    · exact b.mtime.1 hm'
    · rw [b.mtime.2 hm']; exact a.mtime.1 (hm.resolve_right hm')
  · intro hm
    rw [b.mtime.2 fun k => hm (Or.inr k), a.mtime.2 fun k => hm (Or.inl k)]
  · intro hm
    by_cases hm' : C' i
    · exact b.ctime.1 hm'
    · rw [b.ctime.2 hm']; exact a.ctime.1 (hm.resolve_right hm')
  · intro hm
    rw [b.ctime.2 fun k => hm (Or.inr k), a.ctime.2 fun k => hm (Or.inl k)]

theorem Stamped.refl_of (hi : ∀ i y, t.inodes.get i = some y → s.inodes.get i = some y) :
    Stamped now (fun _ => False) (fun _ => False) s t :=
  fun i y hy => ⟨y, hi i y hy, Stamp.refl _ _⟩

theorem stamped_insert {i : Nat} {x y : Inode} {M C : Prop} (hx : s.inodes.get i = some x)
    (hxy : Stamp (now i) M C x y) (ht : t.inodes = s.inodes.insert i y) :
    Stamped now (fun j => j = i ∧ M) (fun j => j = i ∧ C) s t := by
  intro j z hz
  rw [ht, OMap.get_insert] at hz
  split at hz
  · rename_i hj
    injection hz with hz; subst hz; subst hj
    exact ⟨x, hx, hxy.congr (by simp) (by simp)⟩
  · rename_i hj
    exact ⟨z, hz, (Stamp.refl _ _).congr (by simp [hj]) (by simp [hj])⟩

theorem stamp_ts (now : Time) (x y : Inode) (freed : Nat)
    (hy : applyAttr (tsAttr now) freed x = some y) : Stamp now True True x y := by
  simp only [applyAttr, tsAttr, Option.getD_none, Nat.lt_irrefl, if_false, Option.some.injEq,
    Option.getD_some] at hy
  subst hy
  exact ⟨rfl, rfl, rfl, ⟨fun _ => rfl, fun k => absurd trivial k⟩,
    ⟨fun _ => rfl, fun k => absurd trivial k⟩, rfl, rfl, rfl, rfl, rfl⟩

theorem stamp_ct (now : Time) (x y : Inode) (freed : Nat)
    (hy : applyAttr { ctime := some now } freed x = some y) : Stamp now False True x y := by
  simp only [applyAttr, Option.getD_none, Nat.lt_irrefl, if_false, Option.some.injEq,
    Option.getD_some, Option.isSome_none, Bool.false_eq_true] at hy
  subst hy
  exact ⟨rfl, rfl, rfl, ⟨False.elim, fun _ => rfl⟩,
    ⟨fun _ => rfl, fun k => absurd trivial k⟩, rfl, rfl, rfl, rfl, rfl⟩

theorem modInode_stamped {i : Nat} {f : Inode → Option Inode} {M C : Prop}
    (hf : ∀ x y, f x = some y → Stamp (now i) M C x y) (hm : modInode s i f = some t) :
    Stamped now (fun j => j = i ∧ M) (fun j => j = i ∧ C) s t := by
  obtain ⟨x, y, hx, hy, rfl⟩ := modInode_some hm
  exact stamped_insert hx (hf x y hy) rfl

theorem ts_stamped {i : Nat} (hm : doSetattr s i (tsAttr (now i)) 0 = some t) :
    Stamped now (fun j => j = i) (fun j => j = i) s t :=
  (modInode_stamped (fun x y hy => stamp_ts _ x y 0 hy) hm).congr (by simp) (by simp)

theorem deleteObj_stamped (s : FS) (i : Nat) :
    Stamped now (fun _ => False) (fun _ => False) s (deleteObj s i) := by
  apply Stamped.refl_of
  intro j y hy
  simp only [deleteObj, OMap.get_remove] at hy
  split at hy
  · cases hy
  · exact hy

/-- The deleted file may as well count as changed. -/
theorem deleteObj_stamped' (s : FS) (i : Nat) :
    Stamped now (fun _ => False) (fun j => j = i) s (deleteObj s i) := by
  intro j y hy
  simp only [deleteObj, OMap.get_remove] at hy
  split at hy
  · cases hy
  · rename_i hj
    exact ⟨y, hy, (Stamp.refl _ _).congr Iff.rfl (by simp [hj])⟩

theorem doUnlink_stamped {a : Bool} {i : Nat} (hu : doUnlink now h s a i = some t) :
    Stamped now (fun _ => False) (fun j => j = i ∧ True) s t := by
  unfold doUnlink at hu
  split at hu
  · cases hu
  · rename_i x hx
    have hst : Stamp (now i) False True x { x with nlink := x.nlink - 1, ctime := now i } :=
      ⟨rfl, rfl, rfl, ⟨False.elim, fun _ => rfl⟩, ⟨fun _ => rfl, fun k => absurd trivial k⟩, rfl,
        rfl, rfl, rfl, rfl⟩
    simp only at hu
    split at hu
    · split at hu
      · split at hu
        · cases hu
        · injection hu with hu
          subst hu
          exact (stamped_insert hx hst rfl).congr (by simp) (by simp)
      · injection hu with hu
        subst hu
        exact (stamped_insert hx hst rfl).congr (by simp) (by simp)
    · injection hu with hu
      subst hu
      intro j y hy
      simp only [deleteObj, OMap.get_remove] at hy
      split at hy
      · cases hy
      · rename_i hj
        exact ⟨y, hy, (Stamp.refl _ _).congr Iff.rfl (by simp [hj])⟩

theorem stampDec_stamp {now : Time} {x y : Inode} (hy : stampDec now x = some y) :
    Stamp now True True x y := by
  unfold stampDec at hy
  split at hy
  · cases hy
  · injection hy with hy
    subst hy
    exact ⟨rfl, rfl, rfl, ⟨fun _ => rfl, fun k => absurd trivial k⟩,
      ⟨fun _ => rfl, fun k => absurd trivial k⟩, rfl, rfl, rfl, rfl, rfl⟩

theorem renameParent_stamp {now : Time} {d sd : Bool} {old : Option Nat} {x y : Inode}
    (hy : renameParent now d sd old x = some y) : Stamp now True True x y := by
  unfold renameParent at hy
  split at hy
  · exact stampDec_stamp hy
  · injection hy with hy
    subst hy
    exact ⟨rfl, rfl, rfl, ⟨fun _ => rfl, fun k => absurd trivial k⟩,
      ⟨fun _ => rfl, fun k => absurd trivial k⟩, rfl, rfl, rfl, rfl, rfl⟩

theorem renameNewParent_stamp {now : Time} {d : Bool} {old : Option Nat} {x y : Inode}
    (hy : renameNewParent now d old x = some y) : Stamp now True True x y := by
  unfold renameNewParent at hy
  injection hy with hy
  subst hy
  exact ⟨rfl, rfl, rfl, ⟨fun _ => rfl, fun k => absurd trivial k⟩,
    ⟨fun _ => rfl, fun k => absurd trivial k⟩, rfl, rfl, rfl, rfl, rfl⟩

theorem renameLinks_stamped {p np i : Nat} {old : Option Nat} {d : Bool}
    (hr : renameLinks now h s p np i old d = some t) :
    Stamped now (fun j => j = p ∨ j = np)
      (fun j => (j = p ∨ j = np) ∨ old = some j) s t := by
  unfold renameLinks at hr
  simp only at hr
  split at hr
  · cases hr
  · rename_i s1 h1
    split at hr
    · cases hr
    · rename_i s2 h2
      have a1 : Stamped now (fun _ => False) (fun j => old = some j) s s1 := by
        split at h1
        · injection h1 with h1
          subst h1
          refine (Stamped.refl_of ?_).congr (fun _ => Iff.rfl) (by simp)
          intro j y hy
          split at hy <;> exact hy
        · rename_i v
          split at h1
          · rename_i hdt
            simp only [doRmdir, Bool.false_eq_true, if_false, Option.some.injEq] at h1
            subst h1
            refine (Stamped.trans (Stamped.refl_of ?_) (deleteObj_stamped' _ v)).congr (by simp)
              (by simp; intro j; exact eq_comm)
            intro j y hy
            split at hy <;> exact hy
          · rename_i hdt
            refine (Stamped.trans (Stamped.refl_of ?_) (doUnlink_stamped h1)).congr (by simp)
              (by simp; intro j; exact eq_comm)
            intro j y hy
            split at hy <;> exact hy
      have a2 := modInode_stamped (now := now) (fun x y hy => renameParent_stamp hy) h2
      split at hr
      · rename_i hsd
        injection hr with hr
        subst hr
        have hsd' : p = np := of_decide_eq_true hsd
        subst hsd'
        exact (a1.trans a2).congr (by simp) (fun j => by simp; exact or_comm)
      · have a3 := modInode_stamped (now := now) (fun x y hy => renameNewParent_stamp hy) hr
        exact ((a1.trans a2).trans a3).congr (by simp)
          (fun j => by simp; constructor <;> intro k <;> (rcases k with (k | k) | k) <;> simp [k])

end Verif.Attrs
