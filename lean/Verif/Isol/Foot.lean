import Verif.Isol.Calls

/-!
# Every call but `link` is good
-/

namespace Verif.Isol

variable {H : Hash} {m : Store}

theorem mem_named {parent : Nat} {name : Name} {d : Dirent}
    (h : d ∈ tmem direntTable (m (direntKey H parent name))) (hn : d.name = name) :
    d.ino ∈ named H m parent name := by
  unfold named
  rw [members_eq]
  exact List.mem_map.2 ⟨d, List.mem_filter.2 ⟨h, by simpa using hn⟩, rfl⟩

theorem good_renameRest {os : List Nat} (hH : H.Ok) {parent newparent : Nat} {d : Dirent}
    {old : Option Dirent} (h1 : parent ∈ os) (h2 : newparent ∈ os) (h3 : d.ino ∈ os)
    (hp : parent ≠ d.ino) (hnp : newparent ≠ d.ino)
    (ho : ∀ o, old = some o → o.ino ∈ os ∧ parent ≠ o.ino ∧ newparent ≠ o.ino ∧ d.ino ≠ o.ino)
    (h0 : 0 ∉ os) : Good (Foot H os) (renameRest H parent newparent d old) m := by
  unfold renameRest
  refine good_join_parts (S1 := (· = direntKey H d.ino dotdot))
    (S2 := fun k => ((∃ o, old = some o ∧ (k / 2 ^ 64 = o.ino ∨ k = dyingKey H o.ino)) ∨
      k = inodeKey parent ∨ (parent ≠ newparent ∧ k = inodeKey newparent))) ?_ ?_ ?_ ?_ ?_
    fun _ _ _ => good_ret
  · split
    · exact part_htInsert rfl fun _ => part_ok
    · exact part_ok
  · refine part_join (S1 := fun k => ∃ o, old = some o ∧ (k / 2 ^ 64 = o.ino ∨ k = dyingKey H o.ino))
      (S2 := fun k => k = inodeKey parent ∨ (parent ≠ newparent ∧ k = inodeKey newparent))
      ?_ ?_ ?_ (fun k h => .inl h) (fun k h => .inr h) fun _ _ => part_ok
    · split
      · rename_i o
        split
        · have := part_doRmdir (parent := newparent) (ino := o.ino) false (ho o rfl).2.2.1
          refine ⟨this.only.mono fun k h => ⟨o, rfl, ?_⟩, this.noErr,
            fun m => (this.good m).mono fun k h => ⟨o, rfl, ?_⟩⟩ <;>
          · rcases h with h | ⟨h, _⟩
            · exact .inl h
            · cases h
        · have := part_doUnlink hH false o.ino
          exact ⟨this.only.mono fun k h => ⟨o, rfl, h⟩, this.noErr,
            fun m => (this.good m).mono fun k h => ⟨o, rfl, h⟩⟩
      · exact part_ok
    · refine part_join (S1 := (· = inodeKey parent))
        (S2 := fun k => parent ≠ newparent ∧ k = inodeKey newparent)
        (part_updateInode rfl part_ok) ?_ ?_ (fun k h => .inl h) (fun k h => .inr h) fun _ _ => part_ok
      · split
        · exact part_updateInode ⟨‹_›, rfl⟩ part_ok
        · exact part_ok
      · rintro k rfl ⟨h, he⟩; exact h (inodeKey_inj he)
    · rintro k ⟨o, hoo, hk⟩ hk'
      obtain ⟨_, a1, a2, _⟩ := ho o hoo
      rcases hk with hk | hk
      · rcases hk' with rfl | ⟨_, rfl⟩
        · exact a1 ((obj_inodeKey _).symm.trans hk)
        · exact a2 ((obj_inodeKey _).symm.trans hk)
      · rcases hk' with rfl | ⟨_, rfl⟩
        · exact dying_ne_inode hH _ _ hk.symm
        · exact dying_ne_inode hH _ _ hk.symm
  · rintro k rfl (⟨o, hoo, hk | hk⟩ | hk | ⟨_, hk⟩)
    · rw [obj_direntKey hH] at hk; exact (ho o hoo).2.2.2 hk
    · have := obj_direntKey hH d.ino dotdot
      rw [hk, obj_dyingKey hH] at this
      rw [this] at h0; exact h0 h3
    · exact dirent_ne_inode hH _ _ _ hk
    · exact dirent_ne_inode hH _ _ _ hk
  · rintro k rfl; exact foot_obj (by rw [obj_direntKey hH]; exact h3)
  · rintro k (⟨o, hoo, hk | hk⟩ | hk | ⟨_, hk⟩)
    · exact foot_obj (by rw [hk]; exact (ho o hoo).1)
    · exact .inr ⟨o.ino, (ho o hoo).1, hk⟩
    · exact foot_obj (by rw [hk, obj_inodeKey]; exact h1)
    · exact foot_obj (by rw [hk, obj_inodeKey]; exact h2)

theorem good_rename (hH : H.Ok) {parent ino newparent : Nat} {name newname : Name} {target : Option Nat}
    (hs : (Call.rename parent ino name newparent target newname).Sane H m)
    (h0 : 0 ∉ (Call.rename parent ino name newparent target newname).objs H m) :
    Good (Foot H ((Call.rename parent ino name newparent target newname).objs H m))
      (renameProg H parent ino name newparent target newname) m := by
  obtain ⟨s1, s2, s3, s4, s5⟩ := hs
  have hmem : ∀ i ∈ named H m newparent newname,
      i ∈ (Call.rename parent ino name newparent target newname).objs H m := by
    intro i hi; simp [-Nat.reducePow, Call.objs, hi]
  have hpar : parent ∈ (Call.rename parent ino name newparent target newname).objs H m := by
    simp [-Nat.reducePow, Call.objs]
  have hnp : newparent ∈ (Call.rename parent ino name newparent target newname).objs H m := by
    simp [-Nat.reducePow, Call.objs]
  have hino : ino ∈ (Call.rename parent ino name newparent target newname).objs H m := by
    simp [-Nat.reducePow, Call.objs]
  generalize (Call.rename parent ino name newparent target newname).objs H m = os at *
  have go : Good (Foot H os)
      (htRemove direntTable .noent (fun d => d.name = name) (direntKey H parent name) fun d =>
        if d.ino = ino then
          htInsert direntTable (direntKey H newparent newname) { d with name := newname } fun old =>
            renameRest H parent newparent d old
        else .panic) m := by
    refine good_htRemove direntTable_lawful (foot_obj (by rw [obj_direntKey hH]; exact hpar)) ?_
    intro d v' hd hdn hv'
    split
    · rename_i he
      refine good_htInsert (foot_obj (by rw [obj_direntKey hH]; exact hnp)) ?_
      intro old m' hold
      refine good_renameRest hH hpar hnp (by rw [he]; exact hino) (by rw [he]; exact s1)
        (by rw [he]; exact s2) ?_ h0
      intro o ho
      obtain ⟨h1, h2⟩ := hold o ho
      have hin : o.ino ∈ named H m newparent newname := by
        refine mem_named ?_ (by simpa [direntTable, eq_comm] using h2)
        unfold Store.set at h1
        split at h1
        · rename_i hk
          rw [hk]
          exact hv' o h1
        · exact h1
      refine ⟨hmem _ hin, ?_, ?_, ?_⟩
      · intro h; rw [← h] at hin; exact s3 hin
      · intro h; rw [← h] at hin; exact s4 hin
      · intro h; rw [← h, he] at hin; exact s5 hin
    · exact good_ret
  unfold renameProg
  refine good_htGet (foot_obj (by rw [obj_direntKey hH]; exact hnp)) fun o ho => ?_
  split
  · rename_i d
    obtain ⟨h1, h2⟩ := findIn_mem ho
    split
    · split
      · refine good_okToRmdir (fun k hk => foot_obj ?_) go
        rw [hk]; exact hmem _ (mem_named h1 (by simpa using h2))
      · exact go
    · exact good_ret
  · split
    · exact go
    · exact good_ret

theorem call_good (hH : H.Ok) {c : Call} (hl : c.isLink = false) (hs : c.Sane H m)
    (h0 : 0 ∉ c.objs H m) : Good (Foot H (c.objs H m)) (c.prog H) m := by
  cases c with
  | create parent ino name kind attr =>
    have hne : parent ≠ ino := hs
    refine (part_doCreate hH (Sx := (· = inodeKey parent)) (part_touch rfl part_ok) ?_ ?_ ?_).good m
    · intro h; exact hne (inodeKey_inj h).symm
    · exact dirent_ne_inode hH _ _ _
    · rintro k (rfl | rfl | rfl) <;> apply foot_obj <;>
        simp [-Nat.reducePow, Call.objs, obj_inodeKey, obj_direntKey hH]
  | mkdir parent ino name attr =>
    have hne : parent ≠ ino := hs
    refine (part_doCreate hH (part_mkdirExtra hH hne) ?_ ?_ ?_).good m
    · rintro (h | h | h)
      · exact dirent_ne_inode hH _ _ _ h.symm
      · exact dirent_ne_inode hH _ _ _ h.symm
      · exact hne (inodeKey_inj h).symm
    · have hobj : ∀ n, direntKey H parent name ≠ direntKey H ino n := by
        intro n h
        have := obj_direntKey hH parent name
        rw [h, obj_direntKey hH] at this
        exact hne this.symm
      rintro (h | h | h)
      · exact hobj _ h
      · exact hobj _ h
      · exact dirent_ne_inode hH _ _ _ h
    · rintro k (rfl | rfl | rfl | rfl | rfl) <;> apply foot_obj <;>
        simp [-Nat.reducePow, Call.objs, obj_inodeKey, obj_direntKey hH]
  | link => cases hl
  | unlink parent known name =>
    refine good_htRemove direntTable_lawful (foot_obj (by simp [-Nat.reducePow, Call.objs, obj_direntKey hH])) ?_
    intro d v' hd hdn hv'
    have hin : d.ino ∈ named H m parent name := mem_named hd (by simpa using hdn)
    have hne : parent ≠ d.ino := by intro h; rw [← h] at hin; exact hs hin
    split
    · refine good_join_parts (part_doUnlink hH _ _) (part_touch (S := (· = inodeKey parent)) rfl part_ok)
        ?_ ?_ ?_ fun _ _ _ => good_ret
      · rintro k (h | h) rfl
        · exact hne ((obj_inodeKey _).symm.trans h)
        · exact dying_ne_inode hH _ _ h.symm
      · rintro k (h | h)
        · exact foot_obj (by simp [-Nat.reducePow, Call.objs, h, hin])
        · exact .inr ⟨d.ino, by simp [-Nat.reducePow, Call.objs, hin], h⟩
      · rintro k rfl; exact foot_obj (by simp [-Nat.reducePow, Call.objs, obj_inodeKey])
    · exact good_ret
  | rmdir parent name =>
    refine good_htGet (foot_obj (by simp [-Nat.reducePow, Call.objs, obj_direntKey hH])) fun o ho => ?_
    split
    · exact good_ret
    · rename_i d
      obtain ⟨h1, h2⟩ := findIn_mem ho
      have hin : d.ino ∈ named H m parent name := mem_named h1 (by simpa using h2)
      have hne : parent ≠ d.ino := by intro h; rw [← h] at hin; exact hs hin
      have hd := part_doRmdir true hne
      refine good_okToRmdir (fun k hk => foot_obj (by simp [-Nat.reducePow, Call.objs, hk, hin])) ?_
      refine good_join (S1 := (· = direntKey H parent name))
        (only_htRemove rfl fun _ => trivial) hd.only ?_ ?_ ?_ ?_ (noErr_exec _ _ hd.noErr) ?_ ?_
        fun _ _ _ => good_ret
      · rintro k rfl (h | ⟨_, h⟩)
        · rw [obj_direntKey hH] at h; exact hne h
        · exact dirent_ne_inode hH _ _ _ h
      · rintro k rfl; exact foot_obj (by simp [-Nat.reducePow, Call.objs, obj_direntKey hH])
      · rintro k (h | ⟨_, rfl⟩)
        · exact foot_obj (by simp [-Nat.reducePow, Call.objs, h, hin])
        · exact foot_obj (by simp [-Nat.reducePow, Call.objs, obj_inodeKey])
      · intro e; rw [htRemove_found ho]; simp
      · exact good_htRemove direntTable_lawful (foot_obj (by simp [-Nat.reducePow, Call.objs, obj_direntKey hH]))
          fun _ _ _ _ _ => good_ret
      · refine (hd.good m).mono ?_
        rintro k (h | ⟨_, rfl⟩)
        · exact foot_obj (by simp [-Nat.reducePow, Call.objs, h, hin])
        · exact foot_obj (by simp [-Nat.reducePow, Call.objs, obj_inodeKey])
  | rename parent ino name newparent target newname =>
    simp only [Call.prog]
    split
    · exact good_ret
    · exact good_rename hH hs h0
  | inactive ino =>
    refine good_remove (.inr ⟨ino, by simp [-Nat.reducePow, Call.objs], rfl⟩) ?_
    split
    · exact good_ret
    · split
      · exact (part_delete (fun k hk => foot_obj (by simp [-Nat.reducePow, Call.objs, hk])) part_ok).good _
      · exact good_ret
    · exact good_ret
  | setattr ino size attr =>
    exact good_doSetattr hs (foot_obj (by simp [-Nat.reducePow, Call.objs, obj_inodeKey]))
      (fun k hk => foot_obj (by simp [-Nat.reducePow, Call.objs, hk.obj])) fun _ => good_ret
  | deallocate ino off len =>
    have hi : Foot H ((Call.deallocate ino off len).objs H m) (inodeKey ino) :=
      foot_obj (by simp [-Nat.reducePow, Call.objs, obj_inodeKey])
    refine good_get hi ?_
    split
    · rename_i i hv
      obtain ⟨h1, h2⟩ := hs i hv
      split
      · rename_i rs hrs
        simp only
        split
        · refine good_doDeallocate (h2 rs hrs) (by omega) ?_
            (fun k hk => foot_obj (by simp [-Nat.reducePow, Call.objs, hk.obj])) fun n m' => good_insert hi good_ret
          intro l hl
          cases hl
          omega
        · exact good_ret
      · exact good_ret
    · exact good_ret
  | write ino off data =>
    have hi : Foot H ((Call.write ino off data).objs H m) (inodeKey ino) :=
      foot_obj (by simp [-Nat.reducePow, Call.objs, obj_inodeKey])
    refine good_get hi ?_
    split
    · rename_i i hv
      obtain ⟨h1, h2⟩ := hs.1 i hv
      split
      · rename_i rs hrs
        exact good_writeAll (h2 rs hrs) hs.2 (fun k hk => foot_obj (by simp [-Nat.reducePow, Call.objs, hk.obj]))
          fun n m' => good_insert hi good_ret
      · exact good_ret
    · exact good_ret
  | read ino off len atime =>
    have hi : Foot H ((Call.read ino off len atime).objs H m) (inodeKey ino) :=
      foot_obj (by simp [-Nat.reducePow, Call.objs, obj_inodeKey])
    refine good_get hi ?_
    split
    · rename_i i hv
      obtain ⟨h1, h2⟩ := hs.1 i hv
      have hoff := hs.2
      split
      · rename_i rs hrs
        have hrd : Part (Extents ino) (doRead ino i.size rs off len) := by
          refine part_scan (fun k hk1 hk2 => ⟨Nat.le_trans (extentKey_ge _ _) hk1, ?_⟩) fun _ => part_ok
          exact Nat.lt_of_lt_of_le hk2 (extentKey_le (by omega))
        have hsub : ∀ k, Extents ino k → Foot H ((Call.read ino off len atime).objs H m) k :=
          fun k hk => foot_obj (by simp [-Nat.reducePow, Call.objs, hk.obj])
        split
        · refine good_join_parts (S2 := (· = inodeKey ino)) hrd (part_insert rfl fun _ => part_ok) ?_
            hsub ?_ fun _ _ _ => good_ret
          · rintro k hk rfl; exact hk.ne_inode rfl
          · rintro k rfl; exact hi
        · exact (hrd.good m).mono hsub
      · exact good_ret
    · exact good_ret
  | getattr ino =>
    refine good_get (foot_obj (by simp [-Nat.reducePow, Call.objs, obj_inodeKey])) ?_
    split <;> exact good_ret
  | lookup parent name =>
    refine good_htGet (foot_obj (by simp [-Nat.reducePow, Call.objs, obj_direntKey hH])) fun o _ => ?_
    split <;> exact good_ret
  | setxattr ino ns name data =>
    exact (part_htInsert (foot_obj (by simp [-Nat.reducePow, Call.objs, obj_xattrKey hH])) fun _ => part_ok).good m
  | getxattr ino ns name =>
    refine good_htGet (foot_obj (by simp [-Nat.reducePow, Call.objs, obj_xattrKey hH])) fun o _ => ?_
    split <;> exact good_ret
  | deletexattr ino ns name =>
    exact good_htRemove xattrTable_lawful (foot_obj (by simp [-Nat.reducePow, Call.objs, obj_xattrKey hH]))
      fun _ _ _ _ _ => good_ret

/-- Programs that only look. -/
def Looks : Prog → Prop
  | .ret _ => True
  | .get _ f => ∀ v, Looks (f v)
  | .scan _ _ f => ∀ l, Looks (f l)
  | _ => False

theorem looks_writes (p : Prog) : ∀ m, Looks p → ∀ k, ¬ (exec p m).log.writes k := by
  induction p with
  | ret o => intro m _ k; exact writes_nil k
  | get k f ih =>
    intro m h k'
    simp only [exec, Result.after, writes_one, not_or]
    exact ⟨by simp, ih _ m (h _) k'⟩
  | scan lo hi f ih =>
    intro m h k'
    simp only [exec, Result.after, writes_one, not_or]
    exact ⟨by simp, ih _ m (h _) k'⟩
  | insert => intro m h; exact h.elim
  | remove => intro m h; exact h.elim
  | clear => intro m h; exact h.elim
  | join => intro m h; exact h.elim

theorem looks_htGet {T : Type} {t : Table T} {n : T → Bool} {k : Nat} {f : Option T → Prog}
    (h : ∀ o, Looks (f o)) : Looks (htGet t n k f) := by
  intro v
  simp only
  split
  · exact h _
  · trivial

theorem call_looks {c : Call} (h : c.readOnly = true) : Looks (c.prog H) := by
  cases c with
  | read ino off len atime =>
    have ha : atime = false := by cases atime <;> simp_all [Call.readOnly]
    intro v
    simp only
    split
    · split
      · rw [if_neg (by simp [ha])]
        intro l; trivial
      · trivial
    · trivial
  | getattr ino => intro v; simp only; split <;> trivial
  | lookup parent name => refine looks_htGet fun o => ?_; split <;> trivial
  | getxattr ino ns name => refine looks_htGet fun o => ?_; split <;> trivial
  | _ => cases h

theorem foot_apart (hH : H.Ok) {os os' : List Nat} (h0 : 0 ∉ os) (h0' : 0 ∉ os')
    (h : ∀ i ∈ os, ∀ j ∈ os', i ≠ j ∧ H.dying i ≠ H.dying j) (k : Nat) (hk : Foot H os k) :
    ¬ Foot H os' k := by
  rintro (h2 | ⟨j, hj, h2⟩)
  · rcases hk with h1 | ⟨i, hi, h1⟩
    · exact (h _ h1 _ h2).1 rfl
    · rw [h1, obj_dyingKey hH] at h2; exact h0' h2
  · rcases hk with h1 | ⟨i, hi, h1⟩
    · rw [h2, obj_dyingKey hH] at h1; exact h0 h1
    · apply (h i hi j hj).2
      rw [h1] at h2
      unfold dyingKey key at h2
      omega

end Verif.Isol
