import Verif.Reserve.Bounds

/-!
# What each call draws if no hashes collide
-/

namespace Verif.Reserve
open Verif.Isol

variable {H : Hash} {S : Sizes} {rs : Nat → Nat}

theorem want_inode (i : Inode) : want S (.insert (.inode i)) ≤ 2 * S.leaf + S.inode := Nat.le_refl _
theorem want_dying (i : Nat) : want S (.insert (.dying i)) ≤ 2 * S.leaf := Nat.le_refl _
theorem want_remove : want S .remove ≤ 2 * S.leaf := Nat.le_refl _
theorem want_clear : want S .clear ≤ 3 * S.leaf := Nat.le_refl _

theorem cutRec (ino : Nat) :
    CutRec (want S) (Plain H rs) ino (2 * S.leaf + (rs ino + fudge)) := by
  intro m off b b' hm hb hle
  have := hm.extent ino off b hb
  simp only [want, alloc]; omega

theorem putRec (ino : Nat) :
    PutRec (want S) (Plain H rs) ino (rs ino) (2 * S.leaf + (rs ino + fudge)) := by
  constructor
  · intro m off b ofs data hm hb hle
    have := hm.extent ino off b hb
    simp only [want, alloc, overlay_length]; omega
  · intro data hle
    simp only [want, alloc]; omega

section
variable {p : Prog} {n : Nat}

local notation "W" => Within (want S) (Plain H rs)

theorem plain_renameRest {parent newparent : Nat} {d : Dirent} {old : Option Dirent} :
    W (renameRest H parent newparent d old) (10 * S.leaf + 2 + 3 * S.inode) := by
  unfold renameRest
  refine within_join (a := 2 * S.leaf + 2) (b := 8 * S.leaf + 3 * S.inode) (c := 0) ?_
    (within_join (a := 4 * S.leaf + S.inode) (b := 4 * S.leaf + 2 * S.inode) (c := 0) ?_
      (within_join (a := 2 * S.leaf + S.inode) (b := 2 * S.leaf + S.inode) (c := 0)
        (within_updateInode want_inode (n := 0) trivial) ?_
        (fun _ _ => trivial) (by omega)) (fun _ _ => trivial) (by omega)) (fun _ _ => trivial) (by omega)
  · split
    · exact plain_htInsert_dirent (n' := 0) rfl (fun _ => trivial) (by simp [want, alloc, dotdot])
    · trivial
  · split
    · split
      · exact within_doRmdir want_inode want_clear (by simp; omega)
      · exact within_doUnlink want_inode want_dying want_clear (by omega) (by omega)
    · trivial
  · split
    · exact within_updateInode want_inode (n := 0) trivial
    · trivial

theorem call_want {c : Call} (hl : c.isLink = false) (hs : Small S c) :
    W (c.prog H) ((reserve (rs (fileOf c)) c).credit S + unpaid S (rs (fileOf c)) c) := by
  have hpos := hs.pos
  have hino := hs.inode
  cases c with
  | create parent ino name kind attr =>
    refine within_join (a := 2 * S.leaf + S.inode) (b := 4 * S.leaf + name.length + S.inode) (c := 0)
      (within_insert (n' := 0) (fun _ => trivial) (want_inode _))
      (within_join (a := 2 * S.leaf + name.length) (b := 2 * S.leaf + S.inode) (c := 0)
        (plain_htInsert_dirent (n' := 0) rfl (fun _ => trivial) (by simp [want, alloc]))
        (within_touch want_inode (n := 0) trivial) (fun _ _ => trivial) (by omega)) (fun _ _ => ?_)
      (by simp only [reserve, Reservation.credit, unpaid]; omega)
    split <;> trivial
  | mkdir parent ino name attr =>
    refine within_join (a := 2 * S.leaf + S.inode) (b := 8 * S.leaf + name.length + 3 + S.inode) (c := 0)
      (within_insert (n' := 0) (fun _ => trivial) (want_inode _))
      (within_join (a := 2 * S.leaf + name.length) (b := 6 * S.leaf + 3 + S.inode) (c := 0)
        (plain_htInsert_dirent (n' := 0) rfl (fun _ => trivial) (by simp [want, alloc]))
        (within_join (a := 2 * S.leaf + 1) (b := 4 * S.leaf + 2 + S.inode) (c := 0)
          (plain_htInsert_dirent (n' := 0) rfl (fun _ => trivial) (by simp [want, alloc, dot]))
          (within_join (a := 2 * S.leaf + 2) (b := 2 * S.leaf + S.inode) (c := 0)
            (plain_htInsert_dirent (n' := 0) rfl (fun _ => trivial) (by simp [want, alloc, dotdot]))
            (within_updateInode want_inode (n := 0) trivial) (fun _ _ => trivial) (by omega))
          (fun _ _ => trivial) (by omega)) (fun _ _ => trivial) (by omega)) (fun _ _ => ?_)
      (by simp only [reserve, Reservation.credit, unpaid]; omega)
    split <;> trivial
  | link => cases hl
  | unlink parent known name =>
    refine plain_htRemove_dirent (n' := 6 * S.leaf + 2 * S.inode) rfl (fun d _ => ?_)
      (by simp only [reserve, Reservation.credit, unpaid, want]; omega)
    split
    · exact within_join (a := 4 * S.leaf + S.inode) (b := 2 * S.leaf + S.inode) (c := 0)
        (within_doUnlink want_inode want_dying want_clear (by omega) (by omega))
        (within_touch want_inode (n := 0) trivial) (fun _ _ => trivial) (by omega)
    · trivial
  | rmdir parent name =>
    refine within_htGet fun o => ?_
    split
    · trivial
    · exact within_okToRmdir (within_join (a := 2 * S.leaf) (b := 5 * S.leaf + S.inode) (c := 0)
        (plain_htRemove_dirent (n' := 0) rfl (fun _ _ => trivial) (Nat.le_refl _))
        (within_doRmdir want_inode want_clear (by simp; omega))
        (fun _ _ => trivial) (by simp only [reserve, Reservation.credit, unpaid]; omega))
  | rename parent ino name newparent target newname =>
    show W (if _ then _ else _) _
    have hname := hs.name _ _ _ _ _ _ rfl
    split
    · trivial
    · have go : W
          (htRemove direntTable .noent (fun d => d.name = name) (direntKey H parent name) fun d =>
            if d.ino = ino then
              htInsert direntTable (direntKey H newparent newname) { d with name := newname } fun old =>
                renameRest H parent newparent d old
            else .panic) (14 * S.leaf + newname.length + 2 + 3 * S.inode) := by
        refine plain_htRemove_dirent (n' := 12 * S.leaf + newname.length + 2 + 3 * S.inode) rfl
          (fun o _ => ?_) (by simp only [want]; omega)
        split
        · exact plain_htInsert_dirent (n' := 10 * S.leaf + 2 + 3 * S.inode) rfl
            (fun _ => plain_renameRest) (by simp only [want, alloc]; omega)
        · trivial
      unfold renameProg
      refine within_htGet fun o => ?_
      have go' := go.mono (n' := (reserve (rs (fileOf (.rename parent ino name newparent target newname)))
        (.rename parent ino name newparent target newname)).credit S +
          unpaid S (rs (fileOf (.rename parent ino name newparent target newname)))
            (.rename parent ino name newparent target newname))
        (by simp only [reserve, Reservation.credit, unpaid]; omega)
      split
      · split
        · split
          · exact within_okToRmdir go'
          · exact go'
        · trivial
      · split
        · exact go'
        · trivial
  | inactive ino =>
    refine ⟨3 * S.leaf, by simp only [reserve, Reservation.credit, unpaid, want]; omega, fun m _ => ?_⟩
    dsimp only
    split
    · trivial
    · split
      · exact within_clear (n' := 0) trivial (Nat.le_refl _)
      · trivial
    · trivial
  | setattr ino size attr =>
    cases size with
    | none =>
      exact (within_touch want_inode (p := .ok .unit) (n := 0) trivial).mono
        (by simp [reserve, Reservation.credit, unpaid])
    | some n =>
      intro m hm
      dsimp only
      split
      · split
        · split
          · exact within_dealloc_none (n' := 2 * S.leaf + S.inode) want_remove want_clear
              (cutRec ino) (fun _ => within_insert (n' := 0) (fun _ => trivial) (want_inode _))
              (by simp [reserve, Reservation.credit, unpaid, fileOf]; omega)
          · trivial
        · exact within_insert (n' := 0) (fun _ => trivial)
            (by simp [reserve, Reservation.credit, unpaid, want, alloc]; omega)
      · trivial
  | deallocate ino off len =>
    intro m hm
    dsimp only
    split
    · split
      · split
        · exact within_dealloc_some (n' := 2 * S.leaf + S.inode) want_remove want_clear
              (cutRec ino) (fun _ => within_insert (n' := 0) (fun _ => trivial) (want_inode _))
              (by simp only [reserve, Reservation.credit, unpaid, fileOf]; omega)
        · trivial
      · trivial
    · trivial
  | write ino off data =>
    intro m hm
    dsimp only
    split
    · rename_i i hi
      split
      · rename_i r hr
        obtain ⟨h1, h2⟩ := hm.sized ino i r hi hr
        subst h1
        have := within_joinAll (n := 2 * S.leaf + S.inode)
          (f := fun delta => .insert (inodeKey ino) (.inode { i with
              size := max i.size (off + data.length), bytes := ((i.bytes : Int) + delta).toNat })
              fun _ => .ok (.num data.length))
          (within_writeAll (off := off) want_remove h2 (putRec (S := S) (H := H) (rs := rs) ino) (data := data))
          (fun _ => within_insert (n' := 0) (fun _ => trivial) (want_inode _))
        refine this.mono ?_
        rw [writeAll_length h2]
        simp only [reserve, Reservation.credit, unpaid, fileOf, Nat.mul_add, Nat.add_mul]
        omega
      · trivial
    · trivial
  | read ino off len atime =>
    intro m hm
    dsimp only
    split
    · split
      · split
        · exact within_join (a := 0) (b := 2 * S.leaf + S.inode) (c := 0) (within_scan fun _ => trivial)
            (within_insert (n' := 0) (fun _ => trivial) (want_inode _)) (fun _ _ => trivial)
            (by rename_i h; simp [reserve, Reservation.credit, unpaid, h])
        · exact within_scan fun _ => trivial
      · trivial
    · trivial
  | getattr ino =>
    intro m hm
    dsimp only
    split <;> trivial
  | lookup parent name =>
    refine within_htGet fun o => ?_
    split <;> trivial
  | setxattr ino ns name data =>
    exact plain_htInsert_xattr (f := fun _ => .ok .unit) (n' := 0) rfl (fun _ => trivial)
      (by simp only [reserve, Reservation.credit, unpaid, want, alloc]; omega)
  | getxattr ino ns name =>
    refine within_htGet fun o => ?_
    split <;> trivial
  | deletexattr ino ns name =>
    exact plain_htRemove_xattr (f := fun _ => .ok .unit) (n' := 0) rfl (fun _ => trivial)
      (by simp only [reserve, Reservation.credit, unpaid, want]; omega)

/-! ## Up to the last removal -/

local notation "Cu" => Cuts (want S) (Plain H rs)

theorem cuts_deallocLeft {w : Act → Nat} {Q : Store → Prop} {R E : Nat} (hr : w .remove ≤ R) {ino off : Nat}
    (he : CutRec w Q ino E) {len : Option Nat} {r : Nat}
    {f : Prog → Prog} {n n' : Nat} (hf : ∀ p, Within w Q p E → ¬ MayCut p → Cuts w Q (f p) n')
    (h : R + n' ≤ n) : Cuts w Q (deallocLeft ino off len r f) n := by
  unfold deallocLeft
  split
  · exact (hf (.ok (.num 0)) trivial id).mono (by omega)
  · refine ⟨n', by omega, fun m hm => ?_⟩
    have put : ∀ b b' x, m (extentKey ino (off - off % r)) = some (.extent b) → b'.length ≤ b.length →
        Cuts w Q (f (.insert (extentKey ino (off - off % r)) (.extent b') fun _ => .ok (.num x))) n' :=
      fun b b' x h1 h2 => hf _ (within_insert (n' := 0) (fun _ => trivial) (he m _ _ _ hm h1 h2))
        (not_mayCut_insert fun _ => id)
    dsimp only
    cases hv : m (extentKey ino (off - off % r)) with
    | none => exact hf (.ok (.num 0)) trivial id
    | some v =>
      cases v with
      | extent b =>
        dsimp only
        split
        · exact put b _ _ hv (Nat.le_refl _)
        · cases len <;>
          · dsimp only
            split
            · exact put b (b.take (off % r)) _ hv (by rw [List.length_take]; omega)
            · refine put b (zero b (off % r) _) _ hv ?_
              simp only [zero, List.length_append, List.length_take, List.length_replicate,
                List.length_drop]
              omega
      | _ => trivial

theorem cuts_deallocRight {w : Act → Nat} {Q : Store → Prop} {R E : Nat} (hr : w .remove ≤ R) {ino off : Nat}
    (he : CutRec w Q ino E) {l : Nat} {r : Nat}
    {f : Prog → Prog} {n n' : Nat} (hf : ∀ p, Within w Q p E → ¬ MayCut p → Cuts w Q (f p) n')
    (h : R + n' ≤ n) : Cuts w Q (deallocRight ino off (some l) r f) n := by
  unfold deallocRight
  dsimp only
  split
  · refine ⟨n', by omega, fun m hm => ?_⟩
    dsimp only
    split
    · exact hf (.ok (.num 0)) trivial id
    · rename_i b hb
      split
      · refine hf _ (within_insert (n' := 0) (fun _ => trivial) (he m _ b _ hm hb ?_))
          (not_mayCut_insert fun _ => id)
        simp only [zero, List.length_append, List.length_take, List.length_replicate, List.length_drop]
        omega
      · exact hf (.ok (.num b.length)) trivial id
    · trivial
  · exact (hf (.ok (.num 0)) trivial id).mono (by omega)

theorem cuts_dealloc {w : Act → Nat} {Q : Store → Prop} {R C E : Nat} (hr : w .remove ≤ R)
    (hc : w .clear ≤ C) {ino off r : Nat} {len : Option Nat}
    (he : CutRec w Q ino E) {f : Nat → Prog} {n : Nat} (hf : ∀ x, ¬ MayCut (f x))
    (h : R + (if len.isSome then R + E else 0) + C + E ≤ n) :
    Cuts w Q (doDeallocate ino off len r f) n := by
  cases len with
  | none =>
    unfold doDeallocate
    refine cuts_deallocLeft hr he (n' := C + E) (fun left hl _ => ?_) (by simp at h; omega)
    show Cuts w Q (.join _ _ _) _
    exact cuts_join (within_deallocFull hc)
      (within_join hl (b := 0) trivial (c := 0) (fun _ _ => trivial) (Nat.le_refl _))
      (fun _ _ => hf _) (by omega)
  | some l =>
    unfold doDeallocate
    refine cuts_deallocLeft hr he (n' := R + C + E + E) (fun left hl _ => ?_) (by simp at h; omega)
    refine cuts_deallocRight hr he (n' := C + E + E) (fun right hr _ => ?_) (by omega)
    exact cuts_join (within_deallocFull hc)
      (within_join hl hr (c := 0) (fun _ _ => trivial) (Nat.le_refl _)) (fun _ _ => hf _)
      (by omega)

theorem call_cuts {c : Call} (hl : c.isLink = false) (hs : Small S c)
    (hu : unpaid S (rs (fileOf c)) c ≤ S.leaf) :
    Cu (c.prog H) ((reserve (rs (fileOf c)) c).credit S) := by
  have hpos := hs.pos
  have hino := hs.inode
  have hw := call_want (H := H) (rs := rs) hl hs
  cases c with
  | unlink parent known name =>
    refine ⟨6 * S.leaf, by simp only [reserve, Reservation.credit, want]; omega, fun m hm => ?_⟩
    dsimp only
    cases hv : m (direntKey H parent name) with
    | none => trivial
    | some v =>
      obtain ⟨e, rfl, he⟩ := hm.dirent _ _ _ hv
      simp only [direntTable, he, decide_true, ite_true]
      split
      · have ht := @touch_not_mayCut parent id (.ok .unit) id
        refine fun _ => ⟨3 * S.leaf, 3 * S.leaf, 0, by omega, cuts_doUnlink want_clear,
          cuts_of_not ht, fun _ _ => trivial, ?_, fun _ => ?_⟩
        · rintro (h | ⟨_, _, h⟩)
          · exact absurd h ht
          · exact h.elim
        · exact (within_touch want_inode (p := .ok .unit) (n := 0) trivial).mono (by omega)
      · trivial
  | setattr ino size attr =>
    cases size with
    | none => exact cuts_of_not (touch_not_mayCut id)
    | some n =>
      intro m hm
      dsimp only
      split
      · split
        · split
          · refine cuts_dealloc want_remove want_clear (cutRec ino)
              (fun _ => not_mayCut_insert fun _ => id) ?_
            simp [reserve, Reservation.credit, unpaid, fileOf] at hu ⊢; omega
          · trivial
        · exact cuts_of_not (not_mayCut_insert fun _ => id)
      · trivial
  | deallocate ino off len =>
    intro m hm
    dsimp only
    split
    · split
      · split
        · refine cuts_dealloc want_remove want_clear (cutRec ino)
            (fun _ => not_mayCut_insert fun _ => id) ?_
          simp [reserve, Reservation.credit, unpaid, fileOf] at hu ⊢; omega
        · trivial
      · trivial
    · trivial
  | write ino off data =>
    intro m hm
    dsimp only
    split
    · rename_i i hi
      split
      · rename_i r hr
        obtain ⟨h1, h2⟩ := hm.sized ino i r hi hr
        subst h1
        have := cuts_joinAll
          (f := fun delta => .insert (inodeKey ino) (.inode { i with
              size := max i.size (off + data.length), bytes := ((i.bytes : Int) + delta).toNat })
              fun _ => .ok (.num data.length))
          (within_writeAll (off := off) want_remove h2 (putRec (S := S) (H := H) (rs := rs) ino) (data := data))
          (fun _ => not_mayCut_insert fun _ => id)
        refine this.mono ?_
        rw [writeAll_length h2]
        simp only [reserve, Reservation.credit, fileOf, Nat.mul_add, Nat.add_mul]
        omega
      · trivial
    · trivial
  | read ino off len atime =>
    refine cuts_of_not ?_
    rintro ⟨o, h⟩
    dsimp only at h
    split at h
    · split at h
      · split at h
        · rcases h with h | h | ⟨_, _, h⟩
          · exact h.elim fun _ h => h
          · exact not_mayCut_insert (fun _ => id) h
          · exact h
        · exact h.elim fun _ h => h
      · exact h
    · exact h
  | _ => exact hw.cuts

end

end Verif.Reserve
