import Verif.Namespace.OpLemmas

/-! rmdir and rename. -/

namespace Verif.Namespace

open Verif

variable {h : Nat → Nat} {s : FS}

/-- The entries of an empty directory brought to the front. -/
theorem Inv.frontDir (I : Inv h s) {p i : Nat} {n : Name} (hn : Proper n)
    (he : (⟨p, n, i, true⟩ : Ent) ∈ s.ents) (hemp : ¬ ∃ e ∈ s.ents, e.dir = i ∧ Proper e.name) :
    Inv h { s with ents := ⟨p, n, i, true⟩ :: ⟨i, dot, i, true⟩ :: ⟨i, dotdot, p, true⟩ ::
      (erase s.ents p n).filter fun e => e.dir ≠ i } := by
  obtain ⟨h1, ⟨k, hi⟩, hdd⟩ := I.dir_entry hn he
  have hd := I.dots i k hi
  have hip : i ≠ p := by
    rintro rfl; exact hemp ⟨_, he, rfl, hn⟩
  refine I.congr ?_ ?_ (fun _ => rfl) I.isorted (fun _ => id) rfl (Nat.le_refl _)
  · refine List.pairwise_cons.2 ⟨?_, List.pairwise_cons.2 ⟨?_, List.pairwise_cons.2 ⟨?_,
      List.Pairwise.filter _ (erase_keys I.keys _ _)⟩⟩⟩
    · intro a ha hab
      simp only [List.mem_cons] at ha
      rcases ha with rfl | rfl | ha
      · exact hip hab.1.symm
      · exact hip hab.1.symm
      · exact (mem_erase.1 (List.mem_filter.1 ha).1).2 ⟨hab.1.symm, hab.2.symm⟩
    · intro a ha hab
      simp only [List.mem_cons] at ha
      rcases ha with rfl | ha
      · exact absurd (show dot = dotdot from hab.2) (by decide)
      · have := (List.mem_filter.1 ha).2
        simp only [decide_not, Bool.not_eq_true', decide_eq_false_iff_not, ne_eq] at this
        exact this hab.1.symm
    · intro a ha hab
      have := (List.mem_filter.1 ha).2
      simp only [decide_not, Bool.not_eq_true', decide_eq_false_iff_not, ne_eq] at this
      exact this hab.1.symm
  · intro a
    simp only [List.mem_cons, List.mem_filter, mem_erase]
    constructor
    · rintro (rfl | rfl | rfl | ha)
      · exact he
      · exact hd
      · exact hdd
      · exact ha.1.1
    · intro ha
      by_cases h2 : a.dir = i
      · have hna : ¬ Proper a.name := fun h3 => hemp ⟨a, ha, h2, h3⟩
        by_cases h3 : a.name = dot
        · right; left; exact I.mem_key ha hd h2 h3
        · have h4 : a.name = dotdot := Classical.not_not.1 fun h4 => hna ⟨h3, h4⟩
          right; right; left; exact I.mem_key ha hdd h2 h4
      · by_cases h3 : a.dir = p ∧ a.name = n
        · left; exact I.mem_key ha he h3.1 h3.2
        · right; right; right
          exact ⟨⟨ha, h3⟩, by simpa using h2⟩

/-- rmdir of an empty directory. -/
theorem rmdir_ok {p i : Nat} {n : Name} (I : Inv h s) (hn : Proper n) (he : s.Named p n i true)
    (hemp : ¬ ∃ e ∈ s.ents, e.dir = i ∧ Proper e.name) :
    ∃ t, rmdir s p n = some (.ok 0, t) ∧ Inv h t ∧ Frame s t nobody nobody ∧
      t.next = s.next ∧ t.inodes.get i = none ∧
      t.ents = (erase s.ents p n).filter fun e => e.dir ≠ i := by
  have he : (⟨p, n, i, true⟩ : Ent) ∈ s.ents := he
  obtain ⟨h1, hi, hdd⟩ := I.dir_entry hn he
  have hip : i ≠ p := by
    rintro rfl; exact hemp ⟨_, he, rfl, hn⟩
  obtain ⟨kp, hp⟩ := I.entDir _ he
  have hp : s.inodes.get p = some ⟨true, kp⟩ := hp
  have J := (I.frontDir hn he hemp).dropDir hn (fun a ha => by
    have := (List.mem_filter.1 ha).2
    simpa using this) hp hip
  have hk : kp ≠ 0 := by
    have := I.dirs p kp hp
    split at this <;> omega
  obtain ⟨ki, hi'⟩ := hi
  have heq : rmdir s p n = some (.ok 0, { s with
      inodes := (s.inodes.remove i).insert p ⟨true, kp - 1⟩
      ents := (erase s.ents p n).filter fun e => e.dir ≠ i
      items := s.items.filter fun x => x.1 ≠ i }) := by
    have hl := lookup_of_mem I.keys he
    have hok := okToRmdir_eq I ⟨ki, hi'⟩ h1
    rw [if_neg hemp] at hok
    simp only [rmdir, hl, hok, doRmdir, deleteObj, modLink]
    rw [OMap.get_remove, if_neg (Ne.symm hip), hp]
    simp [dec, hk]
  have hg : ∀ j, ((s.inodes.remove i).insert p ⟨true, kp - 1⟩).get j =
      ((s.inodes.insert p ⟨true, kp - 1⟩).remove i).get j := by
    intro j
    simp only [OMap.get_insert, OMap.get_remove]; grind
  have hitems : ∀ x ∈ s.items, x.1 ≠ i := by
    intro x hx h2
    obtain ⟨m, h3⟩ := I.items x hx
    rw [h2, hi'] at h3; cases h3
  refine ⟨_, heq, ?_, ⟨?_, ?_, ?_, ?_⟩, rfl, ?_, rfl⟩
  · exact J.congr J.keys (fun _ => Iff.rfl) hg ((I.isorted.remove _).insert _ _)
      (fun x hx => (List.mem_filter.1 hx).1) rfl (Nat.le_refl _)
  · intro j m h2 _
    refine ⟨m, ?_⟩
    simp only [OMap.get_insert, OMap.get_remove]
    grind
  · intro j _
    have : (s.items.filter fun x => decide (x.1 ≠ i)) = s.items := by
      rw [List.filter_eq_self]; intro x hx; simpa using hitems x hx
    simp only [FS.itemsOf, this]
  · intro j h2
    simp only [OMap.get_insert, OMap.get_remove] at h2
    left; grind
  · exact Nat.le_refl _
  · rw [hg, OMap.get_remove, if_pos rfl]

theorem rmdir_notempty {p i : Nat} {n : Name} (I : Inv h s) (hn : Proper n)
    (he : s.Named p n i true) (hemp : ∃ e ∈ s.ents, e.dir = i ∧ Proper e.name) :
    rmdir s p n = some (.error .ENOTEMPTY, s) := by
  have he : (⟨p, n, i, true⟩ : Ent) ∈ s.ents := he
  obtain ⟨h1, hi, hdd⟩ := I.dir_entry hn he
  have hl := lookup_of_mem I.keys he
  have hok := okToRmdir_eq I hi h1
  rw [if_pos hemp] at hok
  simp only [rmdir, hl, hok]

theorem rmdir_enoent {p : Nat} {n : Name} (hf : ¬ s.Taken p n) :
    rmdir s p n = some (.error .ENOENT, s) := by
  simp only [rmdir, lookup_of_free (free_of_not_taken hf)]

/-- do_unlink looks at the entries only to delete those stored in the object. -/
theorem doUnlink_ents {l m : List Ent} {a : Bool} {j : Nat} {t : FS}
    (ht : doUnlink h { s with ents := l } a j = some t) (hm : ∀ e ∈ m, e.dir ≠ j) :
    doUnlink h { s with ents := m } a j = some { t with ents := m } := by
  have hm : m.filter (fun e => decide (e.dir ≠ j)) = m := by
    rw [List.filter_eq_self]; intro x hx; simpa using hm x hx
  unfold doUnlink at ht ⊢
  cases hg : s.inodes.get j with
  | none => simp [hg] at ht
  | some x =>
    simp only [hg] at ht ⊢
    by_cases h1 : x.nlink - 1 > 0 ∨ a = true
    · rw [if_pos h1] at ht ⊢
      by_cases h2 : x.nlink - 1 = 0
      · rw [if_pos h2] at ht ⊢
        by_cases h3 : (s.dying.get (h j)).isSome
        · rw [if_pos h3] at ht; cases ht
        · rw [if_neg h3] at ht ⊢
          injection ht with ht; subst ht; rfl
      · rw [if_neg h2] at ht ⊢
        injection ht with ht; subst ht; rfl
    · rw [if_neg h1] at ht ⊢
      injection ht with ht; subst ht
      simp only [deleteObj, hm]

/-- What rename needs to know about the moved entry `e`: it is proper, present; `e'` is its new
form and the entries are those of `s` without the source and destination names. -/
theorem rename_move {p np i : Nat} {n nn : Name} {b : Bool} (I : Inv h s) (hn : Proper n)
    (he : (⟨p, n, i, b⟩ : Ent) ∈ s.ents) (hnp : s.Dir np) (hnn : Proper nn)
    (hfree : ∀ a ∈ erase s.ents p n, ¬ (a.dir = np ∧ a.name = nn)) :
    ∃ t, renameLinks h { s with ents := ⟨np, nn, i, b⟩ :: erase s.ents p n } p np i none b = some t ∧
      Inv h t ∧ t.items = s.items ∧ t.next = s.next ∧ (∀ a : Ent, Proper a.name →
        (a ∈ t.ents ↔ a = ⟨np, nn, i, b⟩ ∨ a ∈ erase s.ents p n)) ∧
      (∀ j m, s.inodes.get j = some ⟨false, m⟩ ↔ t.inodes.get j = some ⟨false, m⟩) := by
  obtain ⟨kp, hp⟩ := I.entDir _ he
  have hp : s.inodes.get p = some ⟨true, kp⟩ := hp
  obtain ⟨knp, hnp⟩ := hnp
  have hk : kp ≠ 0 := by
    have := I.dirs p kp hp
    split at this <;> omega
  by_cases hc : b = true ∧ p ≠ np
  · -- a directory to another parent
    obtain ⟨hb, hpn⟩ := hc
    subst hb
    obtain ⟨hi1, ⟨ki, hi⟩, hdd⟩ := I.dir_entry hn he
    have hddne : ¬ ((⟨i, dotdot, p, true⟩ : Ent).dir = p ∧ dotdot = n) := by
      rintro ⟨_, h2⟩; exact proper_dotdot (h2 ▸ hn)
    have hdd' : (⟨i, dotdot, p, true⟩ : Ent) ∈ erase s.ents p n := mem_erase.2 ⟨hdd, hddne⟩
    have J : Inv h { s with
        ents := ⟨p, n, i, true⟩ :: ⟨i, dotdot, p, true⟩ :: erase (erase s.ents p n) i dotdot } := by
      have J := I.front he
      refine J.congr ?_ ?_ (fun _ => rfl) I.isorted (fun _ => id) rfl (Nat.le_refl _)
      · refine List.pairwise_cons.2 ⟨?_, put_keys (erase_keys I.keys _ _) _⟩
        intro a ha hab
        rcases List.mem_cons.1 ha with rfl | ha
        · exact hddne ⟨hab.1.symm, hab.2.symm⟩
        · exact (mem_erase.1 (mem_erase.1 ha).1).2 ⟨hab.1.symm, hab.2.symm⟩
      · intro a
        simp only [List.mem_cons]
        constructor
        · rintro (rfl | rfl | ha)
          · exact Or.inl rfl
          · exact Or.inr hdd'
          · exact Or.inr (mem_erase.1 ha).1
        · rintro (rfl | ha)
          · exact Or.inl rfl
          · by_cases h2 : a.dir = i ∧ a.name = dotdot
            · right; left
              exact eq_of_key I.keys (mem_erase.1 ha).1 hdd h2.1 h2.2
            · right; right; exact mem_erase.2 ⟨ha, h2⟩
    have K := J.moveDir hn hnn hpn hp hnp
      (fun a ha => hfree a (mem_erase.1 ha).1)
    have heq : renameLinks h { s with ents := ⟨np, nn, i, true⟩ :: erase s.ents p n } p np i none
        true = some { s with
          inodes := (s.inodes.insert p ⟨true, kp - 1⟩).insert np ⟨true, knp + 1⟩
          ents := ⟨i, dotdot, np, true⟩ :: erase (⟨np, nn, i, true⟩ :: erase s.ents p n) i dotdot }
        := by
      simp only [renameLinks, modLink, put]
      simp [hpn, hp, dec, hk, OMap.get_insert, Ne.symm hpn, hnp]
    have her : erase (⟨np, nn, i, true⟩ :: erase s.ents p n) i dotdot =
        ⟨np, nn, i, true⟩ :: erase (erase s.ents p n) i dotdot := by
      rw [erase, List.filter_cons, if_pos]
      · rfl
      · simp only [Ent.at, Bool.not_eq_true', decide_eq_false_iff_not]
        rintro ⟨_, h2⟩; exact proper_dotdot (h2 ▸ hnn)
    rw [her] at heq
    refine ⟨_, heq, ?_, rfl, rfl, ?_, ?_⟩
    rotate_left
    · intro a ha
      have h2 : a ≠ ⟨i, dotdot, np, true⟩ := by rintro rfl; exact proper_dotdot ha
      have h3 : ¬ (a.dir = i ∧ a.name = dotdot) := fun h3 => proper_dotdot (h3.2 ▸ ha)
      simp [h2, mem_erase, h3]
    rotate_left
    · have hmem : ∀ e, (e ∈ ((⟨i, dotdot, np, true⟩ : Ent) :: ⟨np, nn, i, true⟩ ::
          erase (erase s.ents p n) i dotdot)) ↔ (e ∈ ((⟨np, nn, i, true⟩ : Ent) ::
          ⟨i, dotdot, np, true⟩ :: erase (erase s.ents p n) i dotdot)) := by
        intro e; simp only [List.mem_cons]; grind
      refine K.congr ?_ hmem (fun _ => rfl) K.isorted (fun _ => id) rfl (Nat.le_refl _)
      exact (List.Perm.pairwise_iff (fun {a b} => Apart.symm) (List.Perm.swap ..)).1 K.keys
    · intro j m
      simp only [OMap.get_insert]; grind
  · -- a file, or within the same directory
    have hb : b = true → np = p := by grind
    have J := I.front he
    have K := J.move hn hnn ⟨knp, hnp⟩ hb hfree
    by_cases hpn : p = np
    · subst hpn
      have heq : renameLinks h { s with ents := ⟨p, nn, i, b⟩ :: erase s.ents p n } p p i none
          b = some { s with
            inodes := s.inodes.insert p ⟨true, kp⟩
            ents := ⟨p, nn, i, b⟩ :: erase s.ents p n } := by
        simp [renameLinks, modLink, hp]
      refine ⟨_, heq, ?_, rfl, rfl, by simp, ?_⟩
      · refine K.congr K.keys (fun _ => Iff.rfl) ?_ (I.isorted.insert _ _) (fun _ => id) rfl
          (Nat.le_refl _)
        intro j; simp only [OMap.get_insert]; grind
      · intro j m; simp only [OMap.get_insert]; grind
    · have hbf : b = false := by grind
      subst hbf
      have heq : renameLinks h { s with ents := ⟨np, nn, i, false⟩ :: erase s.ents p n } p np i none
          false = some { s with
            inodes := (s.inodes.insert p ⟨true, kp⟩).insert np ⟨true, knp⟩
            ents := ⟨np, nn, i, false⟩ :: erase s.ents p n } := by
        simp [renameLinks, modLink, hp, hpn, OMap.get_insert, Ne.symm hpn, hnp]
      refine ⟨_, heq, ?_, rfl, rfl, by simp, ?_⟩
      · refine K.congr K.keys (fun _ => Iff.rfl) ?_ ((I.isorted.insert _ _).insert _ _)
          (fun _ => id) rfl (Nat.le_refl _)
        intro j; simp only [OMap.get_insert]; grind
      · intro j m; simp only [OMap.get_insert]; grind

/-- rename of a file over another name. -/
theorem rename_over_file {p np i j : Nat} {n nn : Name} (I : Inv h s)
    (he : (⟨p, n, i, false⟩ : Ent) ∈ s.ents) (ho : (⟨np, nn, j, false⟩ : Ent) ∈ s.ents)
    (hne : ¬ (np = p ∧ nn = n)) :
    ∃ t, renameLinks h { s with ents := ⟨np, nn, i, false⟩ :: erase (erase s.ents p n) np nn }
        p np i (some j) false = some t ∧
      Inv h t ∧ Frame s t (fun k => k = j ∧ j ≠ i) nobody ∧ t.next = s.next ∧
      (∀ a : Ent, Proper a.name →
        (a ∈ t.ents ↔ a = ⟨np, nn, i, false⟩ ∨ a ∈ erase (erase s.ents p n) np nn)) := by
  obtain ⟨hn, _, _⟩ := I.file_pos he rfl
  obtain ⟨hnn, _, _⟩ := I.file_pos ho rfl
  -- first drop the destination
  have J := I.front ho
  obtain ⟨t, h1, h2, h3, h4, h5, h6⟩ := doUnlink_ok J rfl false (by intro h; cases h)
  have h1 : doUnlink h { s with ents := erase s.ents np nn } false j = some t := h1
  have h3 : t.ents = erase s.ents np nn := h3
  have h4 : Frame s t (fun k => k = j ∧ false = false) (fun k => k = j ∧ false = true) := h4
  have hnj : ∀ a ∈ s.ents, a.dir ≠ j := by
    obtain ⟨_, k, hk⟩ := I.file_pos ho rfl
    exact I.file_not_dir hk
  -- then move
  have he' : (⟨p, n, i, false⟩ : Ent) ∈ t.ents := by
    rw [h3]; exact mem_erase.2 ⟨he, fun h => hne ⟨h.1.symm, h.2.symm⟩⟩
  have hnp : t.Dir np := by
    obtain ⟨m, h7⟩ := I.entDir _ ho
    exact ⟨m, by rw [h6 np (hnj _ ho)]; exact h7⟩
  have hcomm : erase t.ents p n = erase (erase s.ents p n) np nn := by
    rw [h3]; simp only [erase, List.filter_filter]
    apply List.filter_congr; intro x _; exact Bool.and_comm _ _
  obtain ⟨t', g1, g2, g3, g4, g5, g6⟩ := rename_move h2 hn he' hnp hnn (by
    rw [hcomm]; intro a ha; exact (mem_erase.1 ha).2)
  rw [hcomm] at g1
  have hu := doUnlink_ents (m := ⟨np, nn, i, false⟩ :: erase (erase s.ents p n) np nn) h1 (by
    intro a ha
    rcases List.mem_cons.1 ha with rfl | ha
    · exact hnj ⟨np, nn, j, false⟩ ho
    · exact hnj a (mem_erase.1 (mem_erase.1 ha).1).1)
  refine ⟨t', ?_, g2, ?_, by rw [g4, h5], by rw [← hcomm]; exact g5⟩
  · rw [← g1]
    simp only [renameLinks]
    simp [hu]
  · have F : Frame s t' (fun k => k = j ∧ false = false) (fun k => k = j ∧ false = true) := by
      refine ⟨?_, ?_, ?_, by rw [g4]; exact h4.next⟩
      · intro k m a1 a2
        obtain ⟨m', a3⟩ := h4.keep k m a1 a2
        exact ⟨m', (g6 k m').1 a3⟩
      · intro k a1; rw [← h4.items k a1]; simp only [FS.itemsOf, g3]
      · intro k a1; exact h4.dead k ((g6 k 0).2 a1)
    by_cases hji : j = i
    · -- two names of one file: it keeps the other one
      refine ⟨?_, ?_, ?_, F.next⟩
      · intro k m a1 a2
        by_cases hk : k = j
        · subst hk
          have := g2.entIno _ ((g5 ⟨np, nn, i, false⟩ hnn).2 (Or.inl rfl))
          obtain ⟨m', a3⟩ := this
          exact ⟨m', by rw [hji]; exact a3⟩
        · exact F.keep k m a1 fun a3 => hk a3.1
      · intro k a1
        by_cases hk : k = j
        · -- the link count was at least two, so nothing was deleted
          subst hk
          obtain ⟨_, c, hc⟩ := I.file_pos ho rfl
          have hc : s.inodes.get k = some ⟨false, c + 1⟩ := hc
          have hc2 : 0 < c := by
            have a4 := J.files k _ hc
            rw [cI_cons, if_pos ⟨rfl, hnn⟩] at a4
            have a4 : c + 1 = cI (erase s.ents np nn) k + 1 := a4
            have a5 := cI_pos.2 ⟨_, h3 ▸ he', (by rw [hji] : (⟨p, n, i, false⟩ : Ent).ino = k), hn⟩
            omega
          have a6 : t.items = s.items := by
            simp only [doUnlink, hc] at h1
            rw [if_pos (Or.inl (by omega)), if_neg (by omega)] at h1
            injection h1 with h1; rw [← h1]
          simp only [FS.itemsOf, g3, a6]
        · exact F.items k fun a3 => hk a3.1
      · intro k a1
        rcases F.dead k a1 with a2 | a2
        · exact Or.inl a2
        · exact absurd a2.2 (by simp)
    · refine ⟨?_, ?_, ?_, F.next⟩
      · intro k m a1 a2; exact F.keep k m a1 fun a3 => a2 ⟨a3.1, hji⟩
      · intro k a1; exact F.items k fun a3 => a1 ⟨a3.1, hji⟩
      · intro k a1
        rcases F.dead k a1 with a2 | a2
        · exact Or.inl a2
        · exact absurd a2.2 (by simp)

/-- rename of a directory over an empty one. -/
theorem rename_over_dir {p np i j : Nat} {n nn : Name} (I : Inv h s) (hn : Proper n)
    (hnn : Proper nn)
    (he : (⟨p, n, i, true⟩ : Ent) ∈ s.ents) (ho : (⟨np, nn, j, true⟩ : Ent) ∈ s.ents)
    (hne : ¬ (np = p ∧ nn = n)) (hemp : ¬ ∃ e ∈ s.ents, e.dir = j ∧ Proper e.name) :
    ∃ t, renameLinks h { s with ents := ⟨np, nn, i, true⟩ :: erase (erase s.ents p n) np nn }
        p np i (some j) true = some t ∧
      Inv h t ∧ Frame s t nobody nobody ∧ t.next = s.next ∧
      (∀ a : Ent, Proper a.name →
        (a ∈ t.ents ↔ a = ⟨np, nn, i, true⟩ ∨ a ∈ erase (erase s.ents p n) np nn)) := by
  obtain ⟨hj1, ⟨kj, hj⟩, hjdd⟩ := I.dir_entry hnn ho
  obtain ⟨hi1, ⟨ki, hi⟩, hidd⟩ := I.dir_entry hn he
  have hjnp : j ≠ np := by rintro rfl; exact hemp ⟨_, ho, rfl, hnn⟩
  have hjp : j ≠ p := by rintro rfl; exact hemp ⟨_, he, rfl, hn⟩
  have hji : j ≠ i := by
    rintro rfl
    have := I.dir_unique hn hnn he ho
    exact hne ⟨this.1.symm, this.2.symm⟩
  obtain ⟨knp, hnp⟩ := I.entDir _ ho
  have hnp : s.inodes.get np = some ⟨true, knp⟩ := hnp
  obtain ⟨kp, hp⟩ := I.entDir _ he
  have hp : s.inodes.get p = some ⟨true, kp⟩ := hp
  have hknp : knp ≠ 0 := by
    have := I.dirs np knp hnp
    split at this <;> omega
  have hkp : kp ≠ 0 := by
    have := I.dirs p kp hp
    split at this <;> omega
  have J := (I.frontDir hnn ho hemp).dropDir hnn (fun a ha => by
    have := (List.mem_filter.1 ha).2
    simpa using this) hnp hjnp
  have hitems : s.items.filter (fun x => decide (x.1 ≠ j)) = s.items := by
    rw [List.filter_eq_self]
    intro x hx
    simp only [ne_eq, decide_not, Bool.not_eq_true', decide_eq_false_iff_not]
    intro h2
    obtain ⟨m, h3⟩ := I.items x hx
    rw [h2, hj] at h3; cases h3
  -- the entry being moved survives
  have he' : (⟨p, n, i, true⟩ : Ent) ∈ (erase s.ents np nn).filter fun e => decide (e.dir ≠ j) := by
    rw [List.mem_filter]
    exact ⟨mem_erase.2 ⟨he, fun h => hne ⟨h.1.symm, h.2.symm⟩⟩, by simpa using Ne.symm hjp⟩
  have hnp1 : OMap.get ((s.inodes.insert np ⟨true, knp - 1⟩).remove j) np =
      some ⟨true, knp - 1⟩ := by
    rw [OMap.get_remove, if_neg (Ne.symm hjnp), OMap.get_insert, if_pos rfl]
  have hcomm : erase ((erase s.ents np nn).filter fun e => decide (e.dir ≠ j)) p n =
      (erase (erase s.ents p n) np nn).filter fun e => decide (e.dir ≠ j) := by
    simp only [erase, List.filter_filter]
    apply List.filter_congr; intro x _
    cases (!Ent.at p n x) <;> cases (!Ent.at np nn x) <;> cases decide (x.dir ≠ j) <;> rfl
  obtain ⟨t, g1, g2, g3, g4, g5, g6⟩ := rename_move J hn he' ⟨_, hnp1⟩ hnn (by
    rw [hcomm]; intro a ha; exact (mem_erase.1 (List.mem_filter.1 ha).1).2)
  rw [hcomm] at g1
  have hfiles : ∀ k m, s.inodes.get k = some ⟨false, m⟩ ↔ t.inodes.get k = some ⟨false, m⟩ := by
    intro k m
    rw [← g6]
    simp only [OMap.get_remove, OMap.get_insert]
    grind
  have hdrop : ∀ a : Ent, Proper a.name →
      (a = ⟨np, nn, i, true⟩ ∨ a ∈ (erase (erase s.ents p n) np nn).filter (fun e => decide (e.dir ≠ j)) ↔
        a = ⟨np, nn, i, true⟩ ∨ a ∈ erase (erase s.ents p n) np nn) := by
    intro a ha
    have : a ∈ (erase (erase s.ents p n) np nn).filter (fun e => decide (e.dir ≠ j)) ↔
        a ∈ erase (erase s.ents p n) np nn := by
      rw [List.mem_filter]
      refine ⟨fun h1 => h1.1, fun h1 => ⟨h1, ?_⟩⟩
      simp only [ne_eq, decide_not, Bool.not_eq_true', decide_eq_false_iff_not]
      exact fun h2 => hemp ⟨a, (mem_erase.1 (mem_erase.1 h1).1).1, h2, ha⟩
    rw [this]
  -- the model's result
  have hfe : ∀ (x : Ent), x.dir ≠ j → ∀ l : List Ent,
      (x :: l).filter (fun e => decide (e.dir ≠ j)) = x :: l.filter fun e => decide (e.dir ≠ j) := by
    intro x hx l
    rw [List.filter_cons, if_pos (by simpa using hx)]
  have her : ∀ l : List Ent, erase (⟨np, nn, i, true⟩ :: l) i dotdot =
      ⟨np, nn, i, true⟩ :: erase l i dotdot := by
    intro l
    rw [erase, List.filter_cons, if_pos]
    · rfl
    · simp only [Ent.at, Bool.not_eq_true', decide_eq_false_iff_not]
      rintro ⟨_, h2⟩; exact proper_dotdot (h2 ▸ hnn)
  have hfc : ∀ l : List Ent, (erase l i dotdot).filter (fun e => decide (e.dir ≠ j)) =
      erase (l.filter fun e => decide (e.dir ≠ j)) i dotdot := by
    intro l
    simp only [erase, List.filter_filter]
    apply List.filter_congr; intro x _; exact Bool.and_comm _ _
  by_cases hpn : p = np
  · subst hpn
    have hkk : knp = kp := by rw [hp] at hnp; injection hnp with h; injection h with _ h; exact h.symm
    subst hkk
    have e1 : renameLinks h { s with ents := ⟨p, nn, i, true⟩ :: erase (erase s.ents p n) p nn }
        p p i (some j) true = some { s with
          inodes := (s.inodes.remove j).insert p ⟨true, knp - 1⟩
          ents := ⟨p, nn, i, true⟩ :: (erase (erase s.ents p n) p nn).filter
            fun e => decide (e.dir ≠ j) } := by
      simp only [renameLinks, doRmdir, deleteObj, modLink]
      simp [OMap.get_remove, Ne.symm hjp, hp, dec, hkp]
      simpa using hitems
    have e2 : t = { s with
        inodes := ((s.inodes.insert p ⟨true, knp - 1⟩).remove j).insert p ⟨true, knp - 1⟩
        ents := ⟨p, nn, i, true⟩ :: (erase (erase s.ents p n) p nn).filter
            fun e => decide (e.dir ≠ j) } := by
      simp only [renameLinks, modLink] at g1
      simp [hnp1] at g1
      rw [← g1]; simp
    refine ⟨_, e1, ?_, ⟨?_, ?_, ?_, ?_⟩, rfl, ?_⟩
    rotate_right
    · intro a ha
      have h5 := g5 a ha
      rw [hcomm, e2] at h5
      rw [h5, hdrop a ha]
    · refine g2.congr ?_ ?_ ?_ ((I.isorted.remove _).insert _ _) ?_ ?_ ?_
      · have := g2.keys; rw [e2] at this; exact this
      · intro e; rw [e2]
      · intro k; rw [e2]; simp only [OMap.get_insert, OMap.get_remove]; grind
      · rw [e2]; exact fun _ => id
      · rw [e2]
      · rw [e2]; exact Nat.le_refl _
    · intro k m a1 _
      exact ⟨m, by simp only [OMap.get_insert, OMap.get_remove]; grind⟩
    · intro k _; rfl
    · intro k a1
      simp only [OMap.get_insert, OMap.get_remove] at a1
      left; grind
    · exact Nat.le_refl _
  · have e1 : renameLinks h { s with ents := ⟨np, nn, i, true⟩ :: erase (erase s.ents p n) np nn }
        p np i (some j) true = some { s with
          inodes := ((s.inodes.remove j).insert p ⟨true, kp - 1⟩).insert np ⟨true, knp⟩
          ents := ⟨i, dotdot, np, true⟩ :: ⟨np, nn, i, true⟩ ::
            erase ((erase (erase s.ents p n) np nn).filter fun e => decide (e.dir ≠ j)) i dotdot }
        := by
      simp only [renameLinks, doRmdir, deleteObj, modLink, put]
      simp [OMap.get_remove, OMap.get_insert, Ne.symm hjp, Ne.symm hjnp, hp, hnp, hpn, Ne.symm hpn,
        dec, hkp]
      refine ⟨?_, by simpa using hitems⟩
      have := hfe ⟨i, dotdot, np, true⟩ (Ne.symm hji)
        (erase (⟨np, nn, i, true⟩ :: erase (erase s.ents p n) np nn) i dotdot)
      rw [her, hfe ⟨np, nn, i, true⟩ (Ne.symm hjnp), hfc] at this
      rw [her]
      simpa using this
    have hp1 : OMap.get ((s.inodes.insert np ⟨true, knp - 1⟩).remove j) p =
        some ⟨true, kp⟩ := by
      rw [OMap.get_remove, if_neg (Ne.symm hjp), OMap.get_insert, if_neg hpn, hp]
    have e2 : t = { s with
        inodes := (((s.inodes.insert np ⟨true, knp - 1⟩).remove j).insert p ⟨true, kp - 1⟩).insert np
          ⟨true, knp - 1 + 1⟩
        ents := ⟨i, dotdot, np, true⟩ :: ⟨np, nn, i, true⟩ ::
            erase ((erase (erase s.ents p n) np nn).filter fun e => decide (e.dir ≠ j)) i dotdot }
        := by
      simp only [renameLinks, modLink, put] at g1
      simp [hp1, hpn, dec, hkp, OMap.get_insert, Ne.symm hpn, hnp1] at g1
      rw [← g1]
      rw [her]
      simp
    refine ⟨_, e1, ?_, ⟨?_, ?_, ?_, ?_⟩, rfl, ?_⟩
    rotate_right
    · intro a ha
      have h5 := g5 a ha
      rw [hcomm, e2] at h5
      rw [h5, hdrop a ha]
    · refine g2.congr ?_ ?_ ?_ (((I.isorted.remove _).insert _ _).insert _ _) ?_ ?_ ?_
      · have := g2.keys; rw [e2] at this; exact this
      · intro e; rw [e2]
      · intro k; rw [e2]; simp only [OMap.get_insert, OMap.get_remove]; grind
      · rw [e2]; exact fun _ => id
      · rw [e2]
      · rw [e2]; exact Nat.le_refl _
    · intro k m a1 _
      exact ⟨m, by simp only [OMap.get_insert, OMap.get_remove]; grind⟩
    · intro k _; rfl
    · intro k a1
      simp only [OMap.get_insert, OMap.get_remove] at a1
      left; grind
    · exact Nat.le_refl _

end Verif.Namespace
