import Verif.Reserve.Lemmas

/-!
# What each call draws
-/

namespace Verif.Reserve
open Verif.Isol

variable {w : Act → Nat} {Q : Store → Prop} {H : Hash} {S : Sizes} {rs : Nat → Nat}

theorem within_join {p q : Prog} {f : Res → Res → Prog} {a b c n : Nat} (hp : Within w Q p a)
    (hq : Within w Q q b) (hf : ∀ r s, Within w Q (f r s) c) (h : a + b + c ≤ n) :
    Within w Q (.join p q f) n := ⟨a, b, c, h, hp, hq, hf⟩

theorem within_insert {k : Nat} {v : Val} {f : Option Val → Prog} {n n' : Nat}
    (hf : ∀ o, Within w Q (f o) n') (h : w (.insert v) + n' ≤ n) : Within w Q (.insert k v f) n :=
  ⟨n', h, fun _ _ => hf _⟩

theorem within_scan {lo hi : Nat} {f : List (Nat × Val) → Prog} {n : Nat}
    (hf : ∀ l, Within w Q (f l) n) : Within w Q (.scan lo hi f) n := fun _ _ => hf _

theorem within_clear {lo hi : Nat} {p : Prog} {n n' : Nat} (hp : Within w Q p n') (h : w .clear + n' ≤ n) :
    Within w Q (.clear lo hi p) n := ⟨n', h, hp⟩

theorem within_ok {n : Nat} (r : Res) : Within w Q (.ok r) n := trivial

theorem cuts_join {p q : Prog} {f : Res → Res → Prog} {a b n : Nat} (hp : Within w Q p a)
    (hq : Within w Q q b) (hf : ∀ r s, ¬ MayCut (f r s)) (h : a + b ≤ n) :
    Cuts w Q (.join p q f) n :=
  fun _ => ⟨a, b, 0, by omega, hp.cuts, hq.cuts, fun r s => cuts_of_not (hf r s), fun _ => hp,
    fun _ => hq⟩

theorem not_mayCut_insert {k : Nat} {v : Val} {f : Option Val → Prog} (h : ∀ o, ¬ MayCut (f o)) :
    ¬ MayCut (.insert k v f) := fun ⟨o, ho⟩ => h o ho

theorem not_mayCut_ret {o : Outcome} : ¬ MayCut (.ret o) := id

/-! ## Hash tables, whatever is in them -/

section anything
variable {T : Type} {t : Table T} {I R : Nat}

theorem within_htInsert (hi : ∀ v, w (.insert v) ≤ I) {k : Nat} {x : T} {f : Option T → Prog} {n : Nat}
    (hf : ∀ o, Within w Q (f o) n) : Within w Q (htInsert t k x f) (2 * I + n) := by
  unfold htInsert
  refine ⟨I + n, by have := hi (t.val x); omega, fun m _ => ?_⟩
  dsimp only
  have hI : ∀ v o, Within w Q (.insert k v fun _ => f o) (I + n) := fun v o =>
    within_insert (fun _ => hf o) (by have := hi v; omega)
  split
  · exact (hf _).mono (by omega)
  · split
    · split
      · exact (hf _).mono (by omega)
      · intro m' _
        dsimp only
        split
        · exact hI _ _
        · trivial
    · split
      · intro m' _
        dsimp only
        split
        · split
          · exact hI _ _
          · exact hI _ _
        · trivial
      · trivial

theorem within_htRemove (hi : ∀ v, w (.insert v) ≤ I) (hr : w .remove ≤ R) {e : Err} {g : T → Bool}
    {k : Nat} {f : T → Prog} {n : Nat} (hf : ∀ o, Within w Q (f o) n) :
    Within w Q (htRemove t e g k f) (R + I + n) := by
  unfold htRemove
  refine ⟨I + n, by omega, fun m _ => ?_⟩
  dsimp only
  split
  · trivial
  · split
    · split
      · exact (hf _).mono (by omega)
      · exact within_insert (fun _ => trivial) (n' := 0) (by have := hi (t.val ‹T›); omega)
    · split
      · split
        · exact within_insert (fun _ => hf _) (by have := hi (shrink t (swapRemove ‹List T› ‹Nat›)); omega)
        · exact within_insert (fun _ => trivial) (n' := 0) (by have := hi (t.bucket ‹List T›); omega)
      · trivial

theorem within_htGet {g : T → Bool} {k : Nat} {f : Option T → Prog} {n : Nat}
    (hf : ∀ o, Within w Q (f o) n) : Within w Q (htGet t g k f) n := by
  intro m _
  dsimp only
  split
  · exact hf _
  · trivial

end anything

/-! ## Hash tables without collisions -/

theorem plain_htInsert_dirent {k ino : Nat} {d : Dirent} {f : Option Dirent → Prog} {n n' : Nat}
    (hk : k = direntKey H ino d.name) (hf : ∀ o, Within w (Plain H rs) (f o) n')
    (h : w (.insert (.dirent d)) + n' ≤ n) :
    Within w (Plain H rs) (htInsert direntTable k d f) n := by
  subst hk
  refine ⟨n', h, fun m hm => ?_⟩
  dsimp only
  cases hv : m (direntKey H ino d.name) with
  | none => exact hf _
  | some v =>
    obtain ⟨e, rfl, he⟩ := hm.dirent _ _ _ hv
    simp only [direntTable, he]
    exact hf _

theorem plain_htRemove_dirent {k ino : Nat} {name : Name} {e : Err} {f : Dirent → Prog} {n n' : Nat}
    (hk : k = direntKey H ino name) (hf : ∀ o, o.name = name → Within w (Plain H rs) (f o) n')
    (h : w .remove + n' ≤ n) :
    Within w (Plain H rs) (htRemove direntTable e (fun d => d.name = name) k f) n := by
  subst hk
  refine ⟨n', h, fun m hm => ?_⟩
  dsimp only
  cases hv : m (direntKey H ino name) with
  | none => trivial
  | some v =>
    obtain ⟨e, rfl, he⟩ := hm.dirent _ _ _ hv
    simp only [direntTable, he]
    exact hf _ he

theorem plain_htInsert_xattr {k ino : Nat} {d : Xattr} {f : Option Xattr → Prog} {n n' : Nat}
    (hk : k = xattrKey H ino d.ns d.name) (hf : ∀ o, Within w (Plain H rs) (f o) n')
    (h : w (.insert (.xattr d)) + n' ≤ n) :
    Within w (Plain H rs) (htInsert xattrTable k d f) n := by
  subst hk
  refine ⟨n', h, fun m hm => ?_⟩
  dsimp only
  cases hv : m (xattrKey H ino d.ns d.name) with
  | none => exact hf _
  | some v =>
    obtain ⟨e, rfl, h1, h2⟩ := hm.xattr _ _ _ _ hv
    simp only [xattrTable, h1, h2]
    exact hf _

theorem plain_htRemove_xattr {k ino ns : Nat} {name : Name} {e : Err} {f : Xattr → Prog} {n n' : Nat}
    (hk : k = xattrKey H ino ns name) (hf : ∀ o, Within w (Plain H rs) (f o) n')
    (h : w .remove + n' ≤ n) :
    Within w (Plain H rs) (htRemove xattrTable e (fun a => a.ns = ns && a.name = name) k f) n := by
  subst hk
  refine ⟨n', h, fun m hm => ?_⟩
  dsimp only
  cases hv : m (xattrKey H ino ns name) with
  | none => trivial
  | some v =>
    obtain ⟨e, rfl, h1, h2⟩ := hm.xattr _ _ _ _ hv
    simp only [xattrTable, h1, h2]
    exact hf _

/-! ## Parts of calls -/

variable {I E R C : Nat}

theorem within_updateInode (hi : ∀ i, w (.insert (.inode i)) ≤ I) {ino : Nat} {g : Inode → Inode}
    {p : Prog} {n : Nat} (hp : Within w Q p n) : Within w Q (updateInode ino g p) (I + n) := by
  intro m _
  dsimp only
  split
  · exact within_insert (fun _ => hp) (by have := hi (g ‹Inode›); omega)
  · trivial

theorem within_touch (hi : ∀ i, w (.insert (.inode i)) ≤ I) {ino : Nat} {g : Nat → Nat}
    {p : Prog} {n : Nat} (hp : Within w Q p n) : Within w Q (doSetattr ino none g p) (I + n) := by
  intro m _
  dsimp only
  split
  · rename_i i _
    rw [Option.getD_none, if_neg (Nat.lt_irrefl _)]
    exact within_insert (fun _ => hp) (by have := hi { i with size := i.size, attr := g i.attr }; omega)
  · trivial

theorem touch_not_mayCut {ino : Nat} {g : Nat → Nat} {p : Prog} (hp : ¬ MayCut p) :
    ¬ MayCut (doSetattr ino none g p) := by
  rintro ⟨o, h⟩
  dsimp only at h
  split at h
  · rw [Option.getD_none, if_neg (Nat.lt_irrefl _)] at h
    exact not_mayCut_insert (fun _ => hp) h
  · exact h

theorem within_doUnlink (hi : ∀ i, w (.insert (.inode i)) ≤ I) (hd : ∀ i, w (.insert (.dying i)) ≤ E)
    (hc : w .clear ≤ C) {active : Bool} {ino n : Nat} (hn : I + E ≤ n) (hn' : C ≤ n) :
    Within w Q (doUnlink H active ino (.ok .unit)) n := by
  intro m _
  dsimp only
  split
  · split
    · refine within_join (a := E) (b := I) (c := 0) ?_ ?_ (fun _ _ => trivial) (by omega)
      · split
        · refine within_insert (n' := 0) (fun o => ?_) (by have := hd ino; omega)
          split <;> trivial
        · trivial
      · exact within_insert (n' := 0) (fun _ => trivial) (hi _)
    · exact ⟨0, by omega, trivial⟩
  · trivial

theorem cuts_doUnlink (hc : w .clear ≤ C) {active : Bool} {ino : Nat} :
    Cuts w Q (doUnlink H active ino (.ok .unit)) C := by
  intro m _
  dsimp only
  split
  · split
    · refine cuts_of_not ?_
      rintro (h | h | ⟨_, _, h⟩)
      · split at h
        · refine not_mayCut_insert (fun o => ?_) h
          split <;> exact id
        · exact h
      · exact not_mayCut_insert (fun _ => id) h
      · exact h
    · exact ⟨0, by omega, trivial⟩
  · trivial

theorem within_okToRmdir {ino n : Nat} {p : Prog} (hp : Within w Q p n) : Within w Q (okToRmdir ino p) n := by
  refine within_scan fun l => ?_
  split
  · trivial
  · split
    · exact hp
    · trivial

theorem within_doRmdir (hi : ∀ i, w (.insert (.inode i)) ≤ I) (hc : w .clear ≤ C) {parent ino n : Nat}
    {dec : Bool} (hn : C + (if dec then I else 0) ≤ n) : Within w Q (doRmdir parent ino dec) n := by
  refine within_join (a := C) (b := if dec then I else 0) (c := 0) ⟨0, by omega, trivial⟩ ?_
    (fun _ _ => trivial) (by omega)
  split
  · exact within_updateInode hi (n := 0) trivial
  · trivial

/-! ## Deallocation -/

/-- Inserting a record that is no longer than one that was there. -/
def CutRec (w : Act → Nat) (Q : Store → Prop) (ino E : Nat) : Prop :=
  ∀ m off b b', Q m → m (extentKey ino off) = some (.extent b) → b'.length ≤ b.length →
    w (.insert (.extent b')) ≤ E

theorem within_deallocLeft (hr : w .remove ≤ R) {ino off : Nat} (he : CutRec w Q ino E) {len : Option Nat} {r : Nat}
    {f : Prog → Prog} {n n' : Nat} (hf : ∀ p, Within w Q p E → ¬ MayCut p → Within w Q (f p) n')
    (h : R + n' ≤ n) : Within w Q (deallocLeft ino off len r f) n := by
  unfold deallocLeft
  split
  · exact (hf (.ok (.num 0)) trivial id).mono (by omega)
  · refine ⟨n', by omega, fun m hm => ?_⟩
    have put : ∀ b b' x, m (extentKey ino (off - off % r)) = some (.extent b) → b'.length ≤ b.length →
        Within w Q (f (.insert (extentKey ino (off - off % r)) (.extent b') fun _ => .ok (.num x))) n' :=
      fun b b' x h1 h2 => hf _ (within_insert (n' := 0) (fun _ => trivial) (he m _ _ _ hm h1 h2))
        (not_mayCut_insert fun _ => id)
    dsimp only
    cases hv : m (extentKey ino (off - off % r)) with
    | none => exact hf (.ok (.num 0)) trivial id
    | some v =>
      cases v with
      | extent b =>
        dsimp only
        split
        · exact put b _ _ hv (Nat.le_refl _)
        · cases len <;>
          · dsimp only
            split
            · exact put b (b.take (off % r)) _ hv (by rw [List.length_take]; omega)
            · refine put b (zero b (off % r) _) _ hv ?_
              simp only [zero, List.length_append, List.length_take, List.length_replicate,
                List.length_drop]
              omega
      | _ => trivial

theorem within_deallocRight (hr : w .remove ≤ R) {ino off : Nat} (he : CutRec w Q ino E) {l : Nat} {r : Nat}
    {f : Prog → Prog} {n n' : Nat} (hf : ∀ p, Within w Q p E → ¬ MayCut p → Within w Q (f p) n')
    (h : R + n' ≤ n) : Within w Q (deallocRight ino off (some l) r f) n := by
  unfold deallocRight
  dsimp only
  split
  · refine ⟨n', by omega, fun m hm => ?_⟩
    dsimp only
    split
    · exact hf (.ok (.num 0)) trivial id
    · rename_i b hb
      split
      · refine hf _ (within_insert (n' := 0) (fun _ => trivial) (he m _ b _ hm hb ?_))
          (not_mayCut_insert fun _ => id)
        simp only [zero, List.length_append, List.length_take, List.length_replicate, List.length_drop]
        omega
      · exact hf (.ok (.num b.length)) trivial id
    · trivial
  · exact (hf (.ok (.num 0)) trivial id).mono (by omega)

theorem within_deallocFull (hc : w .clear ≤ C) {ino off : Nat} {len : Option Nat} {r : Nat} :
    Within w Q (deallocFull ino off len r) C := within_scan fun _ => within_clear (within_ok _) (n' := 0) hc

theorem within_dealloc_none (hr : w .remove ≤ R) (hc : w .clear ≤ C) {ino off r : Nat}
    (he : CutRec w Q ino E) {f : Nat → Prog} {n n' : Nat} (hf : ∀ x, Within w Q (f x) n')
    (h : R + C + E + n' ≤ n) : Within w Q (doDeallocate ino off none r f) n := by
  unfold doDeallocate
  refine within_deallocLeft hr he (n' := C + E + n') (fun left hl _ => ?_) (by omega)
  show Within w Q (.join _ _ _) _
  exact within_join (within_deallocFull hc)
    (within_join hl (b := 0) trivial (c := 0) (fun _ _ => trivial) (Nat.le_refl _)) (fun _ _ => hf _)
    (by omega)

theorem within_dealloc_some (hr : w .remove ≤ R) (hc : w .clear ≤ C) {ino off r l : Nat}
    (he : CutRec w Q ino E) {f : Nat → Prog} {n n' : Nat} (hf : ∀ x, Within w Q (f x) n')
    (h : R + R + C + E + E + n' ≤ n) : Within w Q (doDeallocate ino off (some l) r f) n := by
  unfold doDeallocate
  refine within_deallocLeft hr he (n' := R + C + E + E + n') (fun left hl _ => ?_) (by omega)
  refine within_deallocRight hr he (n' := C + E + E + n') (fun right hr _ => ?_) (by omega)
  exact within_join (within_deallocFull hc)
    (within_join hl hr (c := 0) (fun _ _ => trivial) (Nat.le_refl _)) (fun _ _ => hf _)
    (by omega)

end Verif.Reserve
