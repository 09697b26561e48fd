import Verif.Reserve.Calls

/-!
# What each call draws, compared to what it reserves
-/

namespace Verif.Reserve
open Verif.Isol

variable {w : Act → Nat} {Q : Store → Prop} {H : Hash} {S : Sizes} {rs : Nat → Nat}
variable {I E R C : Nat}

/-! ## Writing records -/

theorem within_joinAll {ps : List Prog} {f : Int → Prog} {P n : Nat} (hp : ∀ p ∈ ps, Within w Q p P)
    (hf : ∀ x, Within w Q (f x) n) : Within w Q (joinAll ps f) (ps.length * P + n) := by
  induction ps generalizing f n with
  | nil => exact (hf 0).mono (by simp)
  | cons p ps ih =>
    refine within_join (hp p (by simp)) (ih (n := 0) (fun q hq => hp q (by simp [hq]))
      (fun _ => trivial)) (c := n) (fun a b => ?_) ?_
    · split
      · exact hf _
      · trivial
    · rw [List.length_cons, Nat.succ_mul]; omega

theorem cuts_joinAll {ps : List Prog} {f : Int → Prog} {P : Nat} (hp : ∀ p ∈ ps, Within w Q p P)
    (hf : ∀ x, ¬ MayCut (f x)) : Cuts w Q (joinAll ps f) (ps.length * P) := by
  cases ps with
  | nil => exact cuts_of_not (hf 0)
  | cons p ps =>
    refine cuts_join (hp p (by simp)) (within_joinAll (n := 0) (fun q hq => hp q (by simp [hq]))
      (fun _ => trivial)) (fun a b => ?_) ?_
    · split
      · exact hf _
      · exact id
    · rw [List.length_cons, Nat.succ_mul]; omega

/-- Writing a record that is no longer than the record size. -/
structure PutRec (w : Act → Nat) (Q : Store → Prop) (ino r E : Nat) : Prop where
  over : ∀ m off b ofs data, Q m → m (extentKey ino off) = some (.extent b) → ofs + data.length ≤ r →
    w (.insert (.extent (overlay b ofs data))) ≤ E
  new : ∀ data, data.length ≤ r → w (.insert (.extent data)) ≤ E

theorem overlay_length (b : List Nat) (ofs : Nat) (l : List Nat) :
    (overlay b ofs l).length = max (ofs + l.length) b.length := by
  simp only [overlay, List.length_append, List.length_take, List.length_replicate, List.length_drop]
  omega

theorem within_writeRecord (hr : w .remove ≤ R) {ino r off ofs : Nat} (he : PutRec w Q ino r E)
    {data : List Nat} (h : ofs + data.length ≤ r) :
    Within w Q (writeRecord ino r off ofs data) (R + E) := by
  unfold writeRecord
  dsimp only
  split
  · refine ⟨E, by omega, fun m hm => ?_⟩
    cases hv : m (extentKey ino off) with
    | none =>
      refine within_insert (n' := 0) (fun _ => trivial) (he.new _ ?_)
      rw [overlay_length]; simp; omega
    | some v =>
      cases v with
      | extent b => exact within_insert (n' := 0) (fun _ => trivial) (he.over m _ b _ _ hm hv h)
      | _ => trivial
  · refine within_insert (n' := 0) (fun _ => trivial) ?_
    have := he.new data (by omega); omega

theorem mem_chunks {r n : Nat} {l c : List Nat} (h : c ∈ chunks r n l) : c.length ≤ r := by
  induction n generalizing l with
  | zero => cases h
  | succ n ih =>
    unfold chunks at h
    split at h
    · cases h
    · rcases List.mem_cons.1 h with h | h
      · subst h; rw [List.length_take]; omega
      · exact ih h

theorem mem_writeRest {ino r base i : Nat} {cs : List (List Nat)} {p : Prog}
    (h : p ∈ writeRest ino r base i cs) : ∃ off c, c ∈ cs ∧ p = writeRecord ino r off 0 c := by
  induction cs generalizing i with
  | nil => cases h
  | cons c cs ih =>
    rcases List.mem_cons.1 h with h | h
    · exact ⟨_, c, by simp, h⟩
    · obtain ⟨off, d, h1, h2⟩ := ih h
      exact ⟨off, d, by simp [h1], h2⟩

theorem within_writeAll (hr : w .remove ≤ R) {ino r off : Nat} (h0 : 0 < r) (he : PutRec w Q ino r E)
    {data : List Nat} : ∀ p ∈ writeAll ino r off data, Within w Q p (R + E) := by
  intro p hp
  unfold writeAll at hp
  split at hp
  · cases hp
  · rcases List.mem_cons.1 hp with hp | hp
    · subst hp
      refine within_writeRecord hr he ?_
      have := Nat.mod_lt off h0
      rw [List.length_take]; omega
    · obtain ⟨o, c, h1, rfl⟩ := mem_writeRest hp
      have := mem_chunks h1
      exact within_writeRecord hr he (by omega)

theorem writeRest_length {ino r base i : Nat} {cs : List (List Nat)} :
    (writeRest ino r base i cs).length = cs.length := by
  induction cs generalizing i with
  | nil => rfl
  | cons c cs ih => simp [writeRest, ih]

theorem div_one {a r : Nat} (h1 : r ≤ a) (h2 : a < 2 * r) : a / r = 1 :=
  Nat.div_eq_of_lt_le (by omega) (by omega)

theorem chunks_length {r : Nat} (h0 : 0 < r) {n : Nat} {l : List Nat} (h : l.length ≤ n) :
    (chunks r n l).length = (l.length + (r - 1)) / r := by
  induction n generalizing l with
  | zero =>
    have : l.length = 0 := by omega
    rw [this, Nat.zero_add, Nat.div_eq_of_lt (by omega)]; rfl
  | succ n ih =>
    unfold chunks
    split
    · subst l; simp only [List.length_nil, Nat.zero_add]; rw [Nat.div_eq_of_lt (by omega)]
    · rename_i hl
      have : 0 < l.length := List.length_pos_iff.2 hl
      rw [List.length_cons, ih (by rw [List.length_drop]; omega), List.length_drop]
      by_cases hlt : r ≤ l.length
      · rw [show l.length + (r - 1) = (l.length - r + (r - 1)) + r from by omega,
          Nat.add_div_right _ h0]
      · rw [show l.length - r + (r - 1) = r - 1 from by omega, Nat.div_eq_of_lt (by omega),
          div_one (by omega) (by omega)]

theorem writeAll_length {ino r off : Nat} (h0 : 0 < r) {data : List Nat} :
    (writeAll ino r off data).length = nrecs off data.length r := by
  have ho := Nat.mod_lt off h0
  unfold writeAll nrecs
  rw [Nat.div_eq_of_lt ho, Nat.sub_zero]
  split
  · rename_i h
    rw [h.1, h.2]; simp only [List.length_nil, Nat.zero_add]; rw [Nat.div_eq_of_lt (by omega)]
  · rename_i h
    have hpos : 0 < off % r + data.length := by
      cases data with
      | nil => have : off % r ≠ 0 := fun h' => h ⟨rfl, h'⟩
               omega
      | cons x l => rw [List.length_cons]; omega
    rw [List.length_cons, writeRest_length, chunks_length h0 (by rw [List.length_drop]; omega),
      List.length_drop]
    by_cases hlt : r - off % r ≤ data.length
    · rw [show off % r + data.length + (r - 1) = (data.length - (r - off % r) + (r - 1)) + r from by omega,
        Nat.add_div_right _ h0]
    · rw [show data.length - (r - off % r) + (r - 1) = r - 1 from by omega,
        Nat.div_eq_of_lt (by omega), div_one (by omega) (by omega)]

/-! ## The number of operations -/

/-- Operations in units of a leaf. -/
def unit : Act → Nat
  | .insert _ => 2
  | .remove => 2
  | .clear => 3

/-- A reservation in the same units. -/
def Reservation.units (r : Reservation) : Nat := 2 * r.ninsert + 3 * r.nrange + 2 * r.nremove

def isUnlink : Call → Bool
  | .unlink _ _ _ => true
  | _ => false

section
variable {p : Prog} {n : Nat}

theorem unit_updateInode {ino : Nat} {g : Inode → Inode} (hp : Within unit Q p n) :
    Within unit Q (updateInode ino g p) (2 + n) := within_updateInode (fun _ => Nat.le_refl _) hp

theorem unit_touch {ino : Nat} {g : Nat → Nat} (hp : Within unit Q p n) :
    Within unit Q (doSetattr ino none g p) (2 + n) := within_touch (fun _ => Nat.le_refl _) hp

theorem unit_htInsert {T : Type} {t : Table T} {k : Nat} {x : T} {f : Option T → Prog}
    (hf : ∀ o, Within unit Q (f o) n) : Within unit Q (htInsert t k x f) (4 + n) :=
  within_htInsert (I := 2) (fun _ => Nat.le_refl _) hf

theorem unit_htRemove {T : Type} {t : Table T} {e : Err} {g : T → Bool} {k : Nat} {f : T → Prog}
    (hf : ∀ o, Within unit Q (f o) n) : Within unit Q (htRemove t e g k f) (4 + n) :=
  within_htRemove (I := 2) (R := 2) (fun _ => Nat.le_refl _) (Nat.le_refl _) hf

theorem unit_doUnlink {active : Bool} {ino : Nat} :
    Within unit Q (doUnlink H active ino (.ok .unit)) 4 :=
  within_doUnlink (I := 2) (E := 2) (C := 3) (fun _ => Nat.le_refl _) (fun _ => Nat.le_refl _)
    (Nat.le_refl _) (by omega) (by omega)

theorem unit_renameRest {parent newparent : Nat} {d : Dirent} {old : Option Dirent} :
    Within unit Q (renameRest H parent newparent d old) 12 := by
  unfold renameRest
  refine within_join (a := 4) (b := 8) (c := 0) ?_ (within_join (a := 4) (b := 4) (c := 0) ?_
    (within_join (a := 2) (b := 2) (c := 0) (unit_updateInode (n := 0) trivial) ?_
      (fun _ _ => trivial) (by omega)) (fun _ _ => trivial) (by omega)) (fun _ _ => trivial) (by omega)
  · split
    · exact unit_htInsert (n := 0) fun _ => trivial
    · trivial
  · split
    · split
      · exact within_doRmdir (I := 2) (C := 3) (fun _ => Nat.le_refl _) (Nat.le_refl _) (by simp)
      · exact unit_doUnlink
    · trivial
  · split
    · exact unit_updateInode (n := 0) trivial
    · trivial

theorem call_unit {c : Call} (hl : c.isLink = false) (hu : isUnlink c = false) :
    Within unit (Sized rs) (c.prog H) (reserve (rs (fileOf c)) c).units := by
  cases c with
  | create parent ino name kind attr =>
    refine within_join (a := 2) (b := 6) (c := 0) (within_insert (n' := 0) (fun _ => trivial) (Nat.le_refl _))
      (within_join (a := 4) (b := 2) (c := 0) (unit_htInsert (n := 0) fun _ => trivial)
        (unit_touch (n := 0) trivial) (fun _ _ => trivial) (by omega)) (fun _ _ => ?_)
      (by simp [reserve, Reservation.units])
    split <;> trivial
  | mkdir parent ino name attr =>
    refine within_join (a := 2) (b := 14) (c := 0) (within_insert (n' := 0) (fun _ => trivial) (Nat.le_refl _))
      (within_join (a := 4) (b := 10) (c := 0) (unit_htInsert (n := 0) fun _ => trivial)
        (within_join (a := 4) (b := 6) (c := 0) (unit_htInsert (n := 0) fun _ => trivial)
          (within_join (a := 4) (b := 2) (c := 0) (unit_htInsert (n := 0) fun _ => trivial)
            (unit_updateInode (n := 0) trivial) (fun _ _ => trivial) (by omega))
          (fun _ _ => trivial) (by omega)) (fun _ _ => trivial) (by omega)) (fun _ _ => ?_)
      (by simp [reserve, Reservation.units])
    split <;> trivial
  | link => cases hl
  | unlink => cases hu
  | rmdir parent name =>
    refine within_htGet fun o => ?_
    split
    · trivial
    · exact within_okToRmdir (within_join (a := 4) (b := 5) (c := 0)
        (unit_htRemove (n := 0) fun _ => trivial)
        (within_doRmdir (I := 2) (C := 3) (fun _ => Nat.le_refl _) (Nat.le_refl _) (by simp))
        (fun _ _ => trivial) (by simp [reserve, Reservation.units]))
  | rename parent ino name newparent target newname =>
    show Within unit _ (if _ then _ else _) _
    split
    · trivial
    · have go : Within unit (Sized rs)
          (htRemove direntTable .noent (fun d => d.name = name) (direntKey H parent name) fun d =>
            if d.ino = ino then
              htInsert direntTable (direntKey H newparent newname) { d with name := newname } fun old =>
                renameRest H parent newparent d old
            else .panic) 20 := by
        refine unit_htRemove (n := 16) fun o => ?_
        split
        · exact unit_htInsert (n := 12) fun _ => unit_renameRest
        · trivial
      unfold renameProg
      refine within_htGet fun o => ?_
      have go' := go.mono (n' := (reserve (rs (fileOf (.rename parent ino name newparent target newname)))
        (.rename parent ino name newparent target newname)).units) (by simp [reserve, Reservation.units])
      split
      · split
        · split
          · exact within_okToRmdir go'
          · exact go'
        · trivial
      · split
        · exact go'
        · trivial
  | inactive ino =>
    refine ⟨3, by simp [reserve, Reservation.units, unit], fun m _ => ?_⟩
    dsimp only
    split
    · trivial
    · split
      · exact within_clear (n' := 0) trivial (Nat.le_refl _)
      · trivial
    · trivial
  | setattr ino size attr =>
    cases size with
    | none => exact unit_touch (n := 0) trivial
    | some n =>
      intro m hm
      dsimp only
      split
      · split
        · split
          · exact within_dealloc_none (R := 2) (C := 3) (E := 2) (n' := 2) (Nat.le_refl _) (Nat.le_refl _)
              (fun _ _ _ _ _ _ _ => Nat.le_refl _) (fun _ => within_insert (n' := 0) (fun _ => trivial)
                (Nat.le_refl _)) (by simp [reserve, Reservation.units])
          · trivial
        · exact within_insert (n' := 0) (fun _ => trivial) (by simp [reserve, Reservation.units, unit])
      · trivial
  | deallocate ino off len =>
    intro m hm
    dsimp only
    split
    · split
      · split
        · exact within_dealloc_some (R := 2) (C := 3) (E := 2) (n' := 2) (Nat.le_refl _) (Nat.le_refl _)
            (fun _ _ _ _ _ _ _ => Nat.le_refl _) (fun _ => within_insert (n' := 0) (fun _ => trivial)
              (Nat.le_refl _)) (by simp [reserve, Reservation.units])
        · trivial
      · trivial
    · trivial
  | write ino off data =>
    intro m hm
    dsimp only
    split
    · rename_i i hi
      split
      · rename_i r hr
        obtain ⟨h1, h2⟩ := hm ino i r hi hr
        have := within_joinAll (w := unit) (Q := Sized rs) (P := 2 + 2) (n := 2)
          (f := fun delta => .insert (inodeKey ino) (.inode { i with
              size := max i.size (off + data.length), bytes := ((i.bytes : Int) + delta).toNat })
              fun _ => .ok (.num data.length))
          (within_writeAll (off := off) (Nat.le_refl _) h2 (⟨fun _ _ _ _ _ _ _ _ => Nat.le_refl _,
            fun _ _ => Nat.le_refl _⟩ : PutRec unit (Sized rs) ino r 2) (data := data))
          (fun _ => within_insert (n' := 0) (fun _ => trivial) (Nat.le_refl _))
        refine this.mono ?_
        rw [writeAll_length h2, h1]
        simp only [reserve, Reservation.units, fileOf]; omega
      · trivial
    · trivial
  | read ino off len atime =>
    intro m hm
    dsimp only
    split
    · split
      · split
        · exact within_join (a := 0) (b := 2) (c := 0) (within_scan fun _ => trivial)
            (within_insert (n' := 0) (fun _ => trivial) (Nat.le_refl _)) (fun _ _ => trivial)
            (by rename_i h; simp [reserve, Reservation.units, h])
        · exact within_scan fun _ => trivial
      · trivial
    · trivial
  | getattr ino =>
    intro m hm
    dsimp only
    split <;> trivial
  | lookup parent name =>
    refine within_htGet fun o => ?_
    split <;> trivial
  | setxattr ino ns name data => exact unit_htInsert (f := fun _ => .ok .unit) (n := 0) fun _ => trivial
  | getxattr ino ns name =>
    refine within_htGet fun o => ?_
    split <;> trivial
  | deletexattr ino ns name => exact unit_htRemove (f := fun _ => .ok .unit) (n := 0) fun _ => trivial

end

end Verif.Reserve
