import Verif.Namespace.Steps

/-! Every valid request succeeds and preserves the invariant; what it does to other files. -/

namespace Verif.Namespace

open Verif

variable {h : Nat → Nat} {s : FS}

/-- The records of `i`. -/
def FS.itemsOf (s : FS) (i : Nat) : List (Nat × Nat) := s.items.filter fun x => x.1 = i

/-- Files other than `exc` stay, with their records, and files other than `dead` do not lose their
last name. -/
structure Frame (s t : FS) (exc dead : Nat → Prop) : Prop where
  keep : ∀ i n, s.inodes.get i = some ⟨false, n⟩ → ¬ exc i → ∃ m, t.inodes.get i = some ⟨false, m⟩
  items : ∀ i, ¬ exc i → t.itemsOf i = s.itemsOf i
  dead : ∀ i, t.inodes.get i = some ⟨false, 0⟩ → s.inodes.get i = some ⟨false, 0⟩ ∨ dead i
  next : s.next ≤ t.next

/-- No exception. -/
abbrev nobody : Nat → Prop := fun _ => False

theorem Frame.refl (s : FS) : Frame s s nobody nobody :=
  ⟨fun _ n h1 _ => ⟨n, h1⟩, fun _ _ => rfl, fun _ h1 => Or.inl h1, Nat.le_refl _⟩

theorem erase_of_free {l : List Ent} {d : Nat} {n : Name}
    (hf : ∀ e ∈ l, ¬ (e.dir = d ∧ e.name = n)) : erase l d n = l := by
  simp only [erase, List.filter_eq_self]
  intro e he
  have := hf e he
  simp [Ent.at]; grind

theorem lookup_of_free {l : List Ent} {d : Nat} {n : Name}
    (hf : ∀ e ∈ l, ¬ (e.dir = d ∧ e.name = n)) : lookup l d n = none := by
  simp only [lookup, List.find?_eq_none]
  intro e he
  have := hf e he
  simpa [Ent.at] using this

theorem free_of_not_taken {p : Nat} {n : Name} (hf : ¬ s.Taken p n) :
    ∀ e ∈ s.ents, ¬ (e.dir = p ∧ e.name = n) := by
  rintro ⟨d, m, i, b⟩ he ⟨h1, h2⟩
  subst h1; subst h2
  exact hf ⟨i, b, he⟩

theorem create_eq {p kp : Nat} {n : Name} (I : Inv h s) (hp : s.inodes.get p = some ⟨true, kp⟩)
    (hf : ∀ e ∈ s.ents, ¬ (e.dir = p ∧ e.name = n)) :
    create s p n = some (.ok s.next,
      { s with
        inodes := (s.inodes.insert p ⟨true, kp⟩).insert s.next ⟨false, 1⟩
        ents := ⟨p, n, s.next, false⟩ :: s.ents
        next := s.next + 1 }) := by
  have hfr := I.fresh (Nat.le_refl s.next)
  have hpne : s.next ≠ p := by rintro h1; rw [← h1, hfr] at hp; cases hp
  simp only [create, doCreate, touch, modLink, hp, put, lookup_of_free hf, erase_of_free hf]
  rw [OMap.get_insert, if_neg hpne, hfr]
  simp

theorem create_ok {p : Nat} {n : Name} (I : Inv h s) (hp : s.Dir p) (hf : ¬ s.Taken p n) :
    ∃ t, create s p n = some (.ok s.next, t) ∧ Inv h t ∧ Frame s t nobody nobody ∧
      t.next = s.next + 1 ∧ t.ents = ⟨p, n, s.next, false⟩ :: s.ents := by
  have hf := free_of_not_taken hf
  obtain ⟨kp, hp⟩ := hp
  have hfr := I.fresh (Nat.le_refl s.next)
  have J := I.addFile ⟨kp, hp⟩ hf
  refine ⟨_, create_eq I hp hf, ?_, ⟨?_, ?_, ?_, ?_⟩, rfl, rfl⟩
  · refine J.congr J.keys (fun _ => Iff.rfl) ?_ ((I.isorted.insert _ _).insert _ _)
      (fun _ => id) rfl (Nat.le_refl _)
    intro i
    simp only [OMap.get_insert]
    grind
  · intro i m h1 _
    simp only [OMap.get_insert]
    exact ⟨m, by grind⟩
  · intro i _; rfl
  · intro i h1
    simp only [OMap.get_insert] at h1
    left; grind
  · exact Nat.le_succ _

theorem mkdir_eq {p kp : Nat} {n : Name} (I : Inv h s) (hp : s.inodes.get p = some ⟨true, kp⟩)
    (hf : ∀ e ∈ s.ents, ¬ (e.dir = p ∧ e.name = n)) :
    mkdir s p n = some (.ok s.next,
      { s with
        inodes := (s.inodes.insert p ⟨true, kp + 1⟩).insert s.next ⟨true, 2⟩
        ents := ⟨p, n, s.next, true⟩ :: ⟨s.next, dotdot, p, true⟩ :: ⟨s.next, dot, s.next, true⟩ ::
          s.ents
        next := s.next + 1 }) := by
  have hfr := I.fresh (Nat.le_refl s.next)
  have hpne : s.next ≠ p := by rintro h1; rw [← h1, hfr] at hp; cases hp
  have hzd : ∀ m, ∀ e ∈ s.ents, ¬ (e.dir = s.next ∧ e.name = m) := fun m e he h1 => by
    obtain ⟨k, h2⟩ := I.entDir e he; rw [h1.1, hfr] at h2; cases h2
  have h1 : erase s.ents s.next dot = s.ents := erase_of_free (hzd _)
  have h2 : erase (⟨s.next, dot, s.next, true⟩ :: s.ents) s.next dotdot =
      ⟨s.next, dot, s.next, true⟩ :: s.ents := by
    apply erase_of_free
    intro e he
    rcases List.mem_cons.1 he with rfl | he
    · rintro ⟨_, h3⟩; exact absurd (show dot = dotdot from h3) (by decide)
    · exact hzd _ e he
  have h3 : ∀ e ∈ ((⟨s.next, dotdot, p, true⟩ : Ent) :: ⟨s.next, dot, s.next, true⟩ :: s.ents),
      ¬ (e.dir = p ∧ e.name = n) := by
    intro e he
    simp only [List.mem_cons] at he
    rcases he with rfl | rfl | he
    · exact fun h4 => hpne h4.1
    · exact fun h4 => hpne h4.1
    · exact hf e he
  simp only [mkdir, doCreate, mkdirCb, modLink, put, h1, h2, hp, lookup_of_free h3,
    erase_of_free h3]
  rw [OMap.get_insert, if_neg hpne, hfr]
  simp

theorem mkdir_ok {p : Nat} {n : Name} (I : Inv h s) (hp : s.Dir p) (hf : ¬ s.Taken p n) :
    ∃ t, mkdir s p n = some (.ok s.next, t) ∧ Inv h t ∧ Frame s t nobody nobody ∧
      t.next = s.next + 1 ∧ t.ents = ⟨p, n, s.next, true⟩ :: ⟨s.next, dotdot, p, true⟩ ::
        ⟨s.next, dot, s.next, true⟩ :: s.ents := by
  have hf := free_of_not_taken hf
  obtain ⟨kp, hp⟩ := hp
  have hfr := I.fresh (Nat.le_refl s.next)
  refine ⟨_, mkdir_eq I hp hf, I.addDir hp hf, ⟨?_, ?_, ?_, ?_⟩, rfl, rfl⟩
  · intro i m h1 _
    simp only [OMap.get_insert]
    exact ⟨m, by grind⟩
  · intro i _; rfl
  · intro i h1
    simp only [OMap.get_insert] at h1
    left; grind
  · exact Nat.le_succ _

theorem link_ok {p i k : Nat} {n : Name} (I : Inv h s) (hp : s.Dir p) (hf : ¬ s.Taken p n)
    (hi : s.inodes.get i = some ⟨false, k + 1⟩) :
    ∃ t, link s p i n = some (.ok 0, t) ∧ Inv h t ∧ Frame s t nobody nobody ∧
      t.next = s.next ∧ t.ents = ⟨p, n, i, false⟩ :: s.ents := by
  have hf := free_of_not_taken hf
  have J := I.addLink hp hi hf
  obtain ⟨kp, hp⟩ := hp
  have hpne : p ≠ i := by rintro rfl; rw [hi] at hp; cases hp
  have e : link s p i n = some (.ok 0,
      { s with
        inodes := (s.inodes.insert i ⟨false, k + 2⟩).insert p ⟨true, kp⟩
        ents := ⟨p, n, i, false⟩ :: s.ents }) := by
    simp only [link, hi, touch, modLink, put, erase_of_free hf]
    rw [OMap.get_insert, if_neg hpne, hp]
  refine ⟨_, e, ?_, ⟨?_, ?_, ?_, ?_⟩, rfl, rfl⟩
  · refine J.congr J.keys (fun _ => Iff.rfl) ?_ ((I.isorted.insert _ _).insert _ _)
      (fun _ => id) rfl (Nat.le_refl _)
    intro i
    simp only [OMap.get_insert]
    grind
  · intro j m h1 _
    simp only [OMap.get_insert]
    by_cases h2 : j = i
    · exact ⟨k + 2, by grind⟩
    · exact ⟨m, by grind⟩
  · intro i _; rfl
  · intro i h1
    simp only [OMap.get_insert] at h1
    left; grind
  · exact Nat.le_refl _

/-- The state with one entry brought to the front. -/
theorem Inv.front (I : Inv h s) {e : Ent} (he : e ∈ s.ents) :
    Inv h { s with ents := e :: erase s.ents e.dir e.name } := by
  refine I.congr ?_ ?_ (fun _ => rfl) I.isorted (fun _ => id) rfl (Nat.le_refl _)
  · exact put_keys I.keys e
  · intro a
    constructor
    · intro ha
      rcases List.mem_cons.1 ha with rfl | ha
      · exact he
      · exact (mem_erase.1 ha).1
    · intro ha
      by_cases h1 : a.dir = e.dir ∧ a.name = e.name
      · rw [eq_of_key I.keys ha he h1.1 h1.2]; exact List.mem_cons_self ..
      · exact List.mem_cons_of_mem _ (mem_erase.2 ⟨ha, h1⟩)

theorem Inv.file_pos (I : Inv h s) {e : Ent} (he : e ∈ s.ents) (hf : e.isDir = false) :
    Proper e.name ∧ ∃ k, s.inodes.get e.ino = some ⟨false, k + 1⟩ := by
  have hpr : Proper e.name := Classical.not_not.1 fun hn => by
    have := (I.special he hn).1
    rw [hf] at this; cases this
  refine ⟨hpr, ?_⟩
  obtain ⟨m, h1⟩ := I.entIno e he
  rw [hf] at h1
  have h2 := I.files _ _ h1
  have h3 := cI_pos.2 ⟨e, he, rfl, hpr⟩
  exact ⟨m - 1, by rw [h1]; congr 2; omega⟩

/-- Objects without entries of their own. -/
theorem Inv.file_not_dir (I : Inv h s) {i k : Nat} (hi : s.inodes.get i = some ⟨false, k⟩) :
    ∀ e ∈ s.ents, e.dir ≠ i := by
  intro e he h1
  obtain ⟨m, h2⟩ := I.entDir e he
  rw [h1, hi] at h2; cases h2

/-- do_unlink of a file whose entry `e` has just been removed. -/
theorem doUnlink_ok {e : Ent} {l : List Ent} (I : Inv h { s with ents := e :: l })
    (hf : e.isDir = false) (active : Bool)
    (hd : active = true → s.inodes.get e.ino = some ⟨false, 1⟩ → s.dying.get (h e.ino) = none) :
    ∃ t, doUnlink h { s with ents := l } active e.ino = some t ∧ Inv h t ∧ t.ents = l ∧
      Frame s t (fun i => i = e.ino ∧ active = false) (fun i => i = e.ino ∧ active = true) ∧
      t.next = s.next ∧ (∀ i, i ≠ e.ino → t.inodes.get i = s.inodes.get i) := by
  obtain ⟨hpr, k, hi⟩ := I.file_pos (List.mem_cons_self ..) hf
  have hi : s.inodes.get e.ino = some ⟨false, k + 1⟩ := hi
  simp only [doUnlink, hi]
  cases k with
  | succ k =>
    have h1 : k + 1 + 1 - 1 > 0 ∨ active = true := Or.inl (by omega)
    rw [if_pos h1, if_neg (by omega)]
    refine ⟨_, rfl, I.dropLink hf hi, rfl, ⟨?_, ?_, ?_, ?_⟩, rfl, ?_⟩
    · intro j m h2 _
      simp only [OMap.get_insert]
      by_cases h3 : j = e.ino
      · exact ⟨k + 1, by grind⟩
      · exact ⟨m, by grind⟩
    · intro i _; rfl
    · intro j h2
      simp only [OMap.get_insert] at h2
      left; grind
    · exact Nat.le_refl _
    · intro j hj
      simp only [OMap.get_insert, if_neg hj]
  | zero =>
    cases active with
    | true =>
      have h1 : 0 + 1 - 1 > 0 ∨ true = true := Or.inr rfl
      rw [if_pos h1, if_pos (by omega), hd rfl hi]
      refine ⟨_, rfl, I.dropLast hf hi (hd rfl hi), rfl, ⟨?_, ?_, ?_, ?_⟩, rfl, ?_⟩
      · intro j m h2 _
        simp only [OMap.get_insert]
        by_cases h3 : j = e.ino
        · exact ⟨0, by grind⟩
        · exact ⟨m, by grind⟩
      · intro i _; rfl
      · intro j h2
        simp only [OMap.get_insert] at h2
        by_cases h3 : j = e.ino
        · right; exact ⟨h3, rfl⟩
        · left; grind
      · exact Nat.le_refl _
      · intro j hj
        simp only [OMap.get_insert, if_neg hj]
    | false =>
      rw [if_neg (by simp)]
      have hnd := I.file_not_dir hi
      have hl : l.filter (fun a => decide (a.dir ≠ e.ino)) = l := by
        rw [List.filter_eq_self]
        intro a ha
        simpa using hnd a (List.mem_cons_of_mem _ ha)
      have hl' : (deleteObj { s with ents := l } e.ino) = { s with
          inodes := s.inodes.remove e.ino
          ents := l
          items := s.items.filter fun x => x.1 ≠ e.ino } := by
        simp only [deleteObj, hl]
      rw [hl']
      refine ⟨_, rfl, I.dropFile hf hi, rfl, ⟨?_, ?_, ?_, ?_⟩, rfl, ?_⟩
      · intro j m h2 h3
        simp only [OMap.get_remove]
        exact ⟨m, by grind⟩
      · intro j h2
        have h2 : j ≠ e.ino := fun h4 => h2 ⟨h4, rfl⟩
        simp only [FS.itemsOf, List.filter_filter]
        apply List.filter_congr
        intro x _
        by_cases h3 : x.1 = j
        · simp [h3, h2]
        · simp [h3]
      · intro j h2
        simp only [OMap.get_remove] at h2
        left; grind
      · exact Nat.le_refl _
      · intro j hj
        simp only [OMap.get_remove, if_neg hj]

/-- Touching a directory changes nothing that matters. -/
theorem touch_ok (I : Inv h s) {p : Nat} (hp : s.Dir p) :
    ∃ t, touch s p = some t ∧ Inv h t ∧ t.ents = s.ents ∧ t.items = s.items ∧
      t.next = s.next ∧ t.dying = s.dying ∧ (∀ i, t.inodes.get i = s.inodes.get i) := by
  obtain ⟨kp, hp⟩ := hp
  have e : touch s p = some { s with inodes := s.inodes.insert p ⟨true, kp⟩ } := by
    simp only [touch, modLink, hp]
  have hg : ∀ i, (s.inodes.insert p ⟨true, kp⟩).get i = s.inodes.get i := by
    intro i; rw [OMap.get_insert]; grind
  refine ⟨_, e, ?_, rfl, rfl, rfl, rfl, hg⟩
  exact I.congr I.keys (fun _ => Iff.rfl) hg (I.isorted.insert _ _) (fun _ => id) rfl
    (Nat.le_refl _)

theorem Frame.congr_right {s t t' : FS} {exc dead : Nat → Prop} (F : Frame s t exc dead)
    (hg : ∀ i, t'.inodes.get i = t.inodes.get i) (hi : t'.items = t.items) (hn : t.next ≤ t'.next) :
    Frame s t' exc dead := by
  refine ⟨?_, ?_, ?_, Nat.le_trans F.next hn⟩
  · intro i n h1 h2; rw [hg]; exact F.keep i n h1 h2
  · intro i h1; rw [← F.items i h1]; simp only [FS.itemsOf, hi]
  · intro i h1; rw [hg] at h1; exact F.dead i h1

/-- unlink when the name exists. -/
theorem unlink_ok {p i : Nat} {n : Name} {fd : Option Nat} (I : Inv h s)
    (hn : s.Named p n i false) (hfd : fd = some i ∨ fd = none)
    (hd : fd = some i → s.inodes.get i = some ⟨false, 1⟩ → s.dying.get (h i) = none) :
    ∃ t, unlink h s p fd n = some (.ok 0, t) ∧ Inv h t ∧
      Frame s t (fun j => j = i ∧ fd = none) (fun j => j = i ∧ fd = some i) ∧
      t.next = s.next ∧ t.ents = erase s.ents p n := by
  have he : (⟨p, n, i, false⟩ : Ent) ∈ s.ents := hn
  have hl := lookup_of_mem I.keys he
  have J := I.front he
  obtain ⟨t, h1, h2, h3, h4, h5, h6⟩ := doUnlink_ok J rfl fd.isSome (by
    rcases hfd with rfl | rfl
    · intro _; exact hd rfl
    · intro h; cases h)
  have hdir : t.Dir p := by
    obtain ⟨m, h7⟩ := I.entDir _ he
    refine ⟨m, ?_⟩
    rw [h6 p]
    · exact h7
    · rintro rfl
      obtain ⟨m', h8⟩ := I.entIno _ he
      have h7 : s.inodes.get p = some ⟨true, m⟩ := h7
      have h8 : s.inodes.get p = some ⟨false, m'⟩ := h8
      rw [h7] at h8; cases h8
  obtain ⟨t', g1, g2, g3, g4, g5, g6, g7⟩ := touch_ok h2 hdir
  refine ⟨t', ?_, g2, ?_, by rw [g5, h5], by rw [g3, h3]⟩
  · have ha : fd.any (· ≠ i) = false := by
      rcases hfd with rfl | rfl <;> simp
    simp only [unlink, hl, ha, h1, g1]
    simp
  · have F := h4.congr_right g7 g4 (Nat.le_of_eq g5.symm)
    refine ⟨?_, ?_, ?_, F.next⟩
    · intro j m h7 h8
      refine F.keep j m h7 fun h9 => h8 ⟨h9.1, ?_⟩
      rcases hfd with rfl | rfl
      · simp at h9
      · rfl
    · intro j h8
      refine F.items j fun h9 => h8 ⟨h9.1, ?_⟩
      rcases hfd with rfl | rfl
      · simp at h9
      · rfl
    · intro j h8
      rcases F.dead j h8 with h9 | h9
      · exact Or.inl h9
      · refine Or.inr ⟨h9.1, ?_⟩
        rcases hfd with rfl | rfl
        · rfl
        · simp at h9

theorem unlink_enoent {p : Nat} {n : Name} {fd : Option Nat} (hf : ¬ s.Taken p n) :
    unlink h s p fd n = some (.error .ENOENT, s) := by
  simp only [unlink, lookup_of_free (free_of_not_taken hf)]

theorem mem_fb {P : Prop} [Decidable P] : decide P = true ↔ P := decide_eq_true_iff

/-- What `ok_to_rmdir` answers for a directory other than the root. -/
theorem okToRmdir_eq (I : Inv h s) {i : Nat} (hi : s.Dir i) (hr : i ≠ 1) :
    okToRmdir s i = some (if ∃ e ∈ s.ents, e.dir = i ∧ Proper e.name then .error .ENOTEMPTY
      else .ok ()) := by
  obtain ⟨k, hi⟩ := hi
  unfold okToRmdir
  by_cases hx : ∃ e ∈ s.ents, e.dir = i ∧ Proper e.name
  · have : (s.ents.any fun e => decide (e.dir = i ∧ e.name ≠ dot ∧ e.name ≠ dotdot)) = true := by
      rw [List.any_eq_true]
      obtain ⟨e, h1, h2, h3⟩ := hx
      exact ⟨e, h1, decide_eq_true ⟨h2, h3⟩⟩
    rw [if_pos this, if_pos hx]
  · have : ¬ (s.ents.any fun e => decide (e.dir = i ∧ e.name ≠ dot ∧ e.name ≠ dotdot)) = true := by
      rw [List.any_eq_true]
      rintro ⟨e, h1, h2⟩
      have h2 := of_decide_eq_true h2
      exact hx ⟨e, h1, h2.1, h2.2⟩
    rw [if_neg this, if_neg hx, hi]
    have hz : cS s.ents i = 0 := Nat.eq_zero_of_not_pos fun hp => by
      obtain ⟨e, h1, h2, _, h3⟩ := cS_pos.1 hp
      exact hx ⟨e, h1, h2, h3⟩
    have hk := I.dirs i k hi
    rw [if_neg hr, hz] at hk
    have hit : ¬ (s.items.any fun x => decide (x.1 = i)) = true := by
      rw [List.any_eq_true]
      rintro ⟨x, h1, h2⟩
      obtain ⟨m, h3⟩ := I.items x h1
      rw [of_decide_eq_true h2, hi] at h3; cases h3
    simp [hk, hit]

/-- A proper entry of a directory: its target is not the root, and the target's ".." names
the entry's directory. -/
theorem Inv.dir_entry (I : Inv h s) {p i : Nat} {n : Name} (hn : Proper n)
    (he : (⟨p, n, i, true⟩ : Ent) ∈ s.ents) :
    i ≠ 1 ∧ s.Dir i ∧ (⟨i, dotdot, p, true⟩ : Ent) ∈ s.ents := by
  obtain ⟨k, hi⟩ := I.entIno _ he
  have hi : s.inodes.get i = some ⟨true, k⟩ := hi
  have hc := I.names i k hi
  have hpos := cI_pos.2 ⟨_, he, rfl, hn⟩
  have hpos : 0 < cI s.ents i := hpos
  have h1 : i ≠ 1 := by
    rintro rfl; rw [if_pos rfl] at hc; omega
  refine ⟨h1, ⟨k, hi⟩, ?_⟩
  obtain ⟨q, m, c1, c2, c3⟩ := I.dotdots i k hi h1
  -- the name is unique
  have J := I.front he
  have hc' := J.names i k hi
  rw [cI_cons, if_pos ⟨rfl, hn⟩, if_neg h1] at hc'
  have hz : cI (erase s.ents p n) i = 0 := by
    have : cI (erase s.ents p n) i + 1 = 1 := hc'
    omega
  have : (⟨q, m, i, true⟩ : Ent) ∉ erase s.ents p n := fun h2 => by
    have := cI_pos.2 ⟨_, h2, rfl, c1⟩
    have : 0 < cI (erase s.ents p n) i := this
    omega
  rw [mem_erase] at this
  have : q = p ∧ m = n := Classical.not_not.1 fun h3 => this ⟨c2, h3⟩
  rw [this.1] at c3; exact c3

/-- Two proper entries naming the same directory are the same. -/
theorem Inv.dir_unique (I : Inv h s) {p q i : Nat} {n m : Name} (hn : Proper n) (hm : Proper m)
    (he : (⟨p, n, i, true⟩ : Ent) ∈ s.ents) (he' : (⟨q, m, i, true⟩ : Ent) ∈ s.ents) :
    p = q ∧ n = m := by
  obtain ⟨h1, ⟨k, hi⟩, _⟩ := I.dir_entry hn he
  have J := I.front he
  have hc' := J.names i k hi
  rw [cI_cons, if_pos ⟨rfl, hn⟩, if_neg h1] at hc'
  have hz : cI (erase s.ents p n) i = 0 := by
    have : cI (erase s.ents p n) i + 1 = 1 := hc'
    omega
  have : (⟨q, m, i, true⟩ : Ent) ∉ erase s.ents p n := fun h2 => by
    have := cI_pos.2 ⟨_, h2, rfl, hm⟩
    have : 0 < cI (erase s.ents p n) i := this
    omega
  rw [mem_erase] at this
  have := Classical.not_not.1 fun h3 => this ⟨he', h3⟩
  exact ⟨this.1.symm, this.2.symm⟩

end Verif.Namespace
