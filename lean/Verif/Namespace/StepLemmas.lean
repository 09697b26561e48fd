import Verif.Namespace.RenameLemmas

/-! One valid request of a client. -/

namespace Verif.Namespace

open Verif

variable {h : Nat → Nat} {s : FS}

/-- rename, all cases. -/
theorem rename_ok {p np i : Nat} {n nn : Name} {b : Bool} {ni : Option Nat} (I : Inv h s)
    (hn : Proper n) (he : s.Named p n i b) (hty : ∀ j b', s.Named np nn j b' → b' = b)
    (hnp : s.Dir np) (hnn : Proper nn) (hni : ∀ j, ni = some j ↔ ∃ b, s.Named np nn j b) :
    (rename h s p i n np ni nn = some (.error .ENOTEMPTY, s) ∧
      ∃ j, s.Named np nn j true ∧ ∃ m, Proper m ∧ s.Taken j m) ∨
    ∃ t, rename h s p i n np ni nn = some (.ok i, t) ∧ Inv h t ∧
      Frame s t (fun k => s.Named np nn k false ∧ k ≠ i) nobody ∧ t.next = s.next ∧
      (∀ a : Ent, Proper a.name →
        (a ∈ t.ents ↔ a = ⟨np, nn, i, b⟩ ∨ a ∈ erase (erase s.ents p n) np nn)) := by
  have he : (⟨p, n, i, b⟩ : Ent) ∈ s.ents := he
  have hl := lookup_of_mem I.keys he
  have hn' : ¬ (n = dot ∨ n = dotdot) := fun h1 => h1.elim hn.1 hn.2
  -- the outcome of the destination check
  by_cases hdst : ∃ j, s.Named np nn j b
  · obtain ⟨j, hj⟩ := hdst
    have hj : (⟨np, nn, j, b⟩ : Ent) ∈ s.ents := hj
    have hlj := lookup_of_mem I.keys hj
    have hni' : ni = some j := (hni j).2 ⟨b, hj⟩
    by_cases hne : b = true ∧ ∃ e ∈ s.ents, e.dir = j ∧ Proper e.name
    · obtain ⟨rfl, hne⟩ := hne
      left
      obtain ⟨hj1, hjd, _⟩ := I.dir_entry hnn hj
      have hok := okToRmdir_eq I hjd hj1
      rw [if_pos hne] at hok
      refine ⟨?_, j, hj, ?_⟩
      · simp only [rename, if_neg hn', renameCheck, hlj, hni', hok]
        simp
      · obtain ⟨⟨d, m, k, b⟩, h1, h2, h3⟩ := hne
        have h2 : d = j := h2
        subst h2
        exact ⟨m, h3, k, b, h1⟩
    · right
      have hchk : renameCheck s np ni nn = some (.ok ()) := by
        cases b with
        | false => simp only [renameCheck, hlj, hni']; simp
        | true =>
          obtain ⟨hj1, hjd, _⟩ := I.dir_entry hnn hj
          have hok := okToRmdir_eq I hjd hj1
          rw [if_neg fun h1 => hne ⟨rfl, h1⟩] at hok
          simp only [renameCheck, hlj, hni', hok]; simp
      by_cases hsame : np = p ∧ nn = n
      · -- onto itself
        obtain ⟨rfl, rfl⟩ := hsame
        have hfree : ∀ a ∈ erase s.ents np nn, ¬ (a.dir = np ∧ a.name = nn) :=
          fun a ha => (mem_erase.1 ha).2
        obtain ⟨t, g1, g2, g3, g4, g5, g6⟩ := rename_move I hn he hnp hnn hfree
        refine ⟨t, ?_, g2, ⟨?_, ?_, ?_, Nat.le_of_eq g4.symm⟩, g4, ?_⟩
        · simp only [rename, if_neg hn', hchk, hl, put, lookup_of_free hfree, erase_of_free hfree,
            Option.map_none, g1]
          simp
        · intro k m a1 _; exact ⟨m, (g6 k m).1 a1⟩
        · intro k _; simp only [FS.itemsOf, g3]
        · intro k a1; exact Or.inl ((g6 k 0).2 a1)
        · rw [erase_of_free hfree]; exact g5
      · have hlj' : lookup (erase s.ents p n) np nn = some ⟨np, nn, j, b⟩ := by
          have hk := erase_keys I.keys p n
          exact lookup_of_mem hk (mem_erase.2 ⟨hj, hsame⟩)
        have hren : ∀ t, renameLinks h
            { s with ents := ⟨np, nn, i, b⟩ :: erase (erase s.ents p n) np nn } p np i (some j) b =
              some t → rename h s p i n np ni nn = some (.ok i, t) := by
          intro t ht
          simp only [rename, if_neg hn', hchk, hl, put, hlj', Option.map_some, ht]
          simp
        cases b with
        | false =>
          obtain ⟨t, g1, g2, g3, g4, g5⟩ := rename_over_file I he hj hsame
          refine ⟨t, hren t g1, g2, ⟨?_, ?_, g3.dead, g3.next⟩, g4, g5⟩
          · intro k m a1 a2
            exact g3.keep k m a1 fun a3 => a2 ⟨a3.1 ▸ hj, a3.1 ▸ a3.2⟩
          · intro k a2
            exact g3.items k fun a3 => a2 ⟨a3.1 ▸ hj, a3.1 ▸ a3.2⟩
        | true =>
          obtain ⟨t, g1, g2, g3, g4, g5⟩ := rename_over_dir I hn hnn he hj hsame
            fun h1 => hne ⟨rfl, h1⟩
          refine ⟨t, hren t g1, g2, ⟨?_, ?_, g3.dead, g3.next⟩, g4, g5⟩
          · intro k m a1 a2; exact g3.keep k m a1 fun a3 => a3
          · intro k a2; exact g3.items k fun a3 => a3
  · right
    have hfree0 : ¬ s.Taken np nn := by
      rintro ⟨j, b', h1⟩
      have := hty j b' h1
      subst this
      exact hdst ⟨j, h1⟩
    have hf0 := free_of_not_taken hfree0
    have hni' : ni = none := by
      cases ni with
      | none => rfl
      | some j =>
        obtain ⟨b', h1⟩ := (hni j).1 rfl
        exact absurd ⟨j, b', h1⟩ hfree0
    have hchk : renameCheck s np ni nn = some (.ok ()) := by
      simp only [renameCheck, lookup_of_free hf0, hni']; simp
    have hfree : ∀ a ∈ erase s.ents p n, ¬ (a.dir = np ∧ a.name = nn) :=
      fun a ha => hf0 a (mem_erase.1 ha).1
    obtain ⟨t, g1, g2, g3, g4, g5, g6⟩ := rename_move I hn he hnp hnn hfree
    refine ⟨t, ?_, g2, ⟨?_, ?_, ?_, Nat.le_of_eq g4.symm⟩, g4, ?_⟩
    · simp only [rename, if_neg hn', hchk, hl, put, lookup_of_free hfree, erase_of_free hfree,
        Option.map_none, g1]
      simp
    · intro k m a1 _; exact ⟨m, (g6 k m).1 a1⟩
    · intro k _; simp only [FS.itemsOf, g3]
    · intro k a1; exact Or.inl ((g6 k 0).2 a1)
    · rw [erase_of_free hfree]; exact g5

/-- The state after a dying inode's object is deleted. -/
theorem deleteObj_dying (I : Inv h s) {i : Nat} (hi : s.inodes.get i = some ⟨false, 0⟩) :
    deleteObj s i = { s with
      inodes := s.inodes.remove i
      items := s.items.filter fun x => x.1 ≠ i } := by
  have hl : s.ents.filter (fun e => decide (e.dir ≠ i)) = s.ents := by
    rw [List.filter_eq_self]
    intro a ha
    simpa using I.file_not_dir hi a ha
  simp only [deleteObj, hl]

theorem itemsOf_filter {i j : Nat} (hne : j ≠ i) (l : List (Nat × Nat)) :
    (l.filter (fun x => decide (x.1 ≠ i))).filter (fun x => decide (x.1 = j)) =
      l.filter fun x => decide (x.1 = j) := by
  rw [List.filter_filter]
  apply List.filter_congr
  intro x _
  by_cases h3 : x.1 = j
  · simp [h3, hne]
  · simp [h3]

theorem inactive_ok {i : Nat} (I : Inv h s) (hv : ∀ j, s.dying.get (h i) = some j → j = i) :
    ∃ t, inactive h s i = some (.ok 0, t) ∧ Inv h t ∧ t.next = s.next ∧ t.ents = s.ents ∧
      (s.inodes.get i = some ⟨false, 0⟩ → t.inodes.get i = none ∧ t.itemsOf i = []) ∧
      (s.inodes.get i ≠ some ⟨false, 0⟩ → t = s) ∧
      (∀ j, j ≠ i → t.inodes.get j = s.inodes.get j ∧ t.itemsOf j = s.itemsOf j) := by
  unfold inactive
  cases hd : s.dying.get (h i) with
  | none =>
    refine ⟨s, rfl, I, rfl, rfl, ?_, fun _ => rfl, fun _ _ => ⟨rfl, rfl⟩⟩
    intro h1
    rw [I.dyin i h1] at hd; cases hd
  | some j =>
    have hj := hv j hd
    subst hj
    obtain ⟨_, h1⟩ := I.dyout _ _ hd
    have J := I.dropDying h1
    have e := deleteObj_dying I h1
    have e' : deleteObj { s with dying := s.dying.remove (h j) } j = { s with
        inodes := s.inodes.remove j
        items := s.items.filter fun x => x.1 ≠ j
        dying := s.dying.remove (h j) } := by
      have : deleteObj { s with dying := s.dying.remove (h j) } j =
        { deleteObj s j with dying := s.dying.remove (h j) } := rfl
      rw [this, e]
    simp only [ne_eq, not_true_eq_false, if_false]
    rw [e']
    refine ⟨_, rfl, J, rfl, rfl, ?_, fun h2 => absurd h1 h2, ?_⟩
    · intro _
      refine ⟨?_, ?_⟩
      · simp only [OMap.get_remove, if_true]
      · simp only [FS.itemsOf, List.filter_filter]
        rw [List.filter_eq_nil_iff]
        intro x _; simp
    · intro k hk
      refine ⟨?_, ?_⟩
      · simp only [OMap.get_remove, if_neg hk]
      · exact itemsOf_filter hk s.items

theorem foldl_dying (l : List (Nat × Nat)) (s : FS) (d : OMap Nat) :
    { l.foldl (fun s e => deleteObj s e.2) { s with dying := d } with dying := [] } =
      ({ l.foldl (fun s e => deleteObj s e.2) s with dying := [] } : FS) := by
  induction l generalizing s with
  | nil => rfl
  | cons e l ih =>
    simp only [List.foldl_cons]
    exact ih (deleteObj s e.2)

theorem purge_aux (l : OMap Nat) (s : FS) (I : Inv h s) (hl : s.dying = l) :
    Inv h { l.foldl (fun s e => deleteObj s e.2) s with dying := [] } ∧
    (l.foldl (fun s e => deleteObj s e.2) s).ents = s.ents ∧
    (l.foldl (fun s e => deleteObj s e.2) s).next = s.next ∧
    (∀ j x, (l.foldl (fun s e => deleteObj s e.2) s).inodes.get j = some x ↔
      s.inodes.get j = some x ∧ x ≠ ⟨false, 0⟩) ∧
    (∀ j, (l.foldl (fun s e => deleteObj s e.2) s).itemsOf j =
      if s.inodes.get j = some ⟨false, 0⟩ then [] else s.itemsOf j) := by
  induction l generalizing s with
  | nil =>
    have hz : ∀ j, s.inodes.get j ≠ some ⟨false, 0⟩ := by
      intro j h1
      have := I.dyin j h1
      rw [hl] at this; cases this
    refine ⟨?_, rfl, rfl, ?_, ?_⟩
    · have : ({ s with dying := [] } : FS) = s := by rw [← hl]
      simp only [List.foldl_nil]; rw [this]; exact I
    · intro j x
      refine ⟨fun h1 => ⟨h1, ?_⟩, fun h1 => h1.1⟩
      rintro rfl; exact hz j h1
    · intro j
      rw [if_neg (hz j)]; rfl
  | cons e l ih =>
    obtain ⟨k, i⟩ := e
    have hs : OMap.Sorted ((k, i) :: l) := hl ▸ I.dsorted
    have hget : s.dying.get k = some i := by rw [hl]; simp [OMap.get]
    obtain ⟨hk, hi⟩ := I.dyout k i hget
    have hrem : s.dying.remove (h i) = l := by
      rw [hl, ← hk]
      have : OMap.remove ((k, i) :: l) k = OMap.remove l k := by
        simp [OMap.remove]
      rw [this]
      exact OMap.remove_of_none (OMap.get_none_of_lt hs (Nat.le_refl _))
    have J := I.dropDying hi
    rw [hrem] at J
    have e1 := deleteObj_dying I hi
    have e2 : ({ s with
        inodes := s.inodes.remove i
        items := s.items.filter fun x => x.1 ≠ i
        dying := l } : FS) = { deleteObj s i with dying := l } := by rw [e1]
    rw [e2] at J
    obtain ⟨a1, a2, a3, a4, a5⟩ := ih _ J rfl
    rw [foldl_dying] at a1
    have hfold : ∀ (m : List (Nat × Nat)) (t : FS) (d : OMap Nat),
        (m.foldl (fun s e => deleteObj s e.2) { t with dying := d }).ents =
          (m.foldl (fun s e => deleteObj s e.2) t).ents ∧
        (m.foldl (fun s e => deleteObj s e.2) { t with dying := d }).next =
          (m.foldl (fun s e => deleteObj s e.2) t).next ∧
        (m.foldl (fun s e => deleteObj s e.2) { t with dying := d }).inodes =
          (m.foldl (fun s e => deleteObj s e.2) t).inodes ∧
        (m.foldl (fun s e => deleteObj s e.2) { t with dying := d }).items =
          (m.foldl (fun s e => deleteObj s e.2) t).items := by
      intro m t d
      have := foldl_dying m t d
      injection this with b1 b2 b3 b4 b5
      exact ⟨b2, b5, b1, b3⟩
    obtain ⟨f1, f2, f3, f4⟩ := hfold l (deleteObj s i) l
    simp only [List.foldl_cons]
    refine ⟨a1, ?_, ?_, ?_, ?_⟩
    · rw [← f1, a2, e1]
    · rw [← f2, a3, e1]
    · intro j x
      rw [← f3, a4]
      show (deleteObj s i).inodes.get j = some x ∧ _ ↔ _
      rw [e1]
      show (s.inodes.remove i).get j = some x ∧ _ ↔ _
      rw [OMap.get_remove]
      grind
    · intro j
      have : (l.foldl (fun s e => deleteObj s e.2) (deleteObj s i)).itemsOf j =
          (l.foldl (fun s e => deleteObj s e.2) { deleteObj s i with dying := l }).itemsOf j := by
        simp only [FS.itemsOf, f4]
      rw [this, a5]
      show (if (deleteObj s i).inodes.get j = some ⟨false, 0⟩ then [] else (deleteObj s i).itemsOf j) = _
      rw [e1]
      show (if (s.inodes.remove i).get j = some ⟨false, 0⟩ then [] else
        (s.items.filter fun x => decide (x.1 ≠ i)).filter fun x => decide (x.1 = j)) = _
      rw [OMap.get_remove]
      by_cases hj : j = i
      · subst hj
        rw [if_pos rfl, if_pos hi, if_neg (by simp), List.filter_filter, List.filter_eq_nil_iff]
        intro x _; simp
      · rw [if_neg hj, itemsOf_filter hj]; rfl

theorem le_foldl_max (l : List Nat) (a : Nat) : a ≤ l.foldl max a ∧ ∀ x ∈ l, x ≤ l.foldl max a := by
  induction l generalizing a with
  | nil => simp
  | cons y l ih =>
    have := ih (max a y)
    simp only [List.foldl_cons, List.mem_cons]
    refine ⟨by omega, ?_⟩
    rintro x (rfl | hx)
    · omega
    · exact this.2 x hx

theorem le_lastObject {i : Nat} {x : Inode} (hi : s.inodes.get i = some x) : i ≤ lastObject s := by
  apply (le_foldl_max _ 0).2
  simp only [List.mem_append, List.mem_map]
  exact Or.inl (Or.inl ⟨_, OMap.mem_of_get hi, rfl⟩)

theorem mount_ok (I : Inv h s) (early : Bool) :
    Inv h (mount s early) ∧ (mount s early).ents = s.ents ∧
    (∀ j x, (mount s early).inodes.get j = some x ↔ s.inodes.get j = some x ∧ x ≠ ⟨false, 0⟩) ∧
    (∀ j, (mount s early).itemsOf j =
      if s.inodes.get j = some ⟨false, 0⟩ then [] else s.itemsOf j) := by
  obtain ⟨a1, a2, a3, a4, a5⟩ := purge_aux s.dying s I rfl
  refine ⟨?_, a2, a4, a5⟩
  have hlast : ∀ j x, (purge s).inodes.get j = some x →
      j ≤ lastObject (if early then s else purge s) := by
    intro j x h1
    cases early with
    | true => exact le_lastObject ((a4 j x).1 h1).1
    | false => exact le_lastObject h1
  exact ⟨a1.keys, a1.entDir, a1.entIno, a1.files, a1.dirs, a1.names, a1.dots, a1.dotdots, a1.rootdd,
    a1.root, fun j x h1 => Nat.lt_succ_of_le (hlast j x h1), a1.items, a1.dyin, a1.dyout, a1.isorted,
    a1.dsorted⟩

theorem store_ok {i k : Nat} (I : Inv h s) (hi : s.File i) :
    ∃ t, store s i k = some (.ok 0, t) ∧ Inv h t ∧ t.next = s.next ∧ t.ents = s.ents ∧
      t.inodes = s.inodes ∧ (∀ j, j ≠ i → t.itemsOf j = s.itemsOf j) ∧ (i, k) ∈ t.itemsOf i ∧
      (∀ x, x ∈ s.itemsOf i → x ∈ t.itemsOf i) := by
  obtain ⟨n, hi⟩ := hi
  have e : store s i k = some (.ok 0,
      { s with items := (i, k) :: s.items.filter (· ≠ (i, k)) }) := by
    simp only [store, hi]
  refine ⟨_, e, ?_, rfl, rfl, rfl, ?_, ?_, ?_⟩
  · refine ⟨I.keys, I.entDir, I.entIno, I.files, I.dirs, I.names, I.dots, I.dotdots, I.rootdd,
      I.root, I.next, ?_, I.dyin, I.dyout, I.isorted, I.dsorted⟩
    intro x hx
    rcases List.mem_cons.1 hx with rfl | hx
    · exact ⟨n, hi⟩
    · exact I.items x (List.mem_filter.1 hx).1
  · intro j hj
    simp only [FS.itemsOf]
    rw [List.filter_cons, if_neg (by simpa using Ne.symm hj), List.filter_filter]
    apply List.filter_congr
    intro x _
    by_cases h1 : x.1 = j
    · have : x ≠ (i, k) := by rintro rfl; exact hj h1.symm
      simp [h1, this]
    · simp [h1]
  · simp [FS.itemsOf]
  · intro x hx
    simp only [FS.itemsOf, List.mem_filter, List.mem_cons] at hx ⊢
    refine ⟨?_, hx.2⟩
    by_cases h1 : x = (i, k)
    · exact Or.inl h1
    · exact Or.inr ⟨hx.1, by simpa using h1⟩

theorem burn_ok (I : Inv h s) : Inv h (burn s) :=
  ⟨I.keys, I.entDir, I.entIno, I.files, I.dirs, I.names, I.dots, I.dotdots, I.rootdd,
    I.root, fun j x h1 => Nat.lt_succ_of_lt (I.next j x h1), I.items, I.dyin, I.dyout, I.isorted,
    I.dsorted⟩

end Verif.Namespace
