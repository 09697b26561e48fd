import Verif.Namespace.Lemmas

/-! Preservation of the invariant by the elementary changes. -/

namespace Verif.Namespace

open Verif

variable {h : Nat → Nat} {s : FS}

/-- The new inode and entries of a mkdir. -/
theorem Inv.addDir (I : Inv h s) {p kp : Nat} {n : Name} (hp : s.inodes.get p = some ⟨true, kp⟩)
    (hf : ∀ e ∈ s.ents, ¬ (e.dir = p ∧ e.name = n)) :
    Inv h { s with
      inodes := (s.inodes.insert p ⟨true, kp + 1⟩).insert s.next ⟨true, 2⟩
      ents := ⟨p, n, s.next, true⟩ :: ⟨s.next, dotdot, p, true⟩ :: ⟨s.next, dot, s.next, true⟩ ::
        s.ents
      next := s.next + 1 } := by
  have hpn := I.proper ⟨_, hp⟩ hf
  have hfr := I.fresh (Nat.le_refl s.next)
  have hz : cI s.ents s.next = 0 := cI_zero fun e he h1 => by
    obtain ⟨k, h2⟩ := I.entIno e he; rw [h1, hfr] at h2; cases h2
  have hzd : ∀ e ∈ s.ents, e.dir ≠ s.next := fun e he h1 => by
    obtain ⟨k, h2⟩ := I.entDir e he; rw [h1, hfr] at h2; cases h2
  have hzs : cS s.ents s.next = 0 := cS_zero hzd
  have hpne : p ≠ s.next := by rintro rfl; rw [hfr] at hp; cases hp
  have hroot : s.next ≠ 1 := by
    obtain ⟨m, h1⟩ := I.root
    rintro h2; rw [h2, h1] at hfr; cases hfr
  have hget : ∀ i, OMap.get ((s.inodes.insert p ⟨true, kp + 1⟩).insert s.next ⟨true, 2⟩) i =
      if i = s.next then some ⟨true, 2⟩ else if i = p then some ⟨true, kp + 1⟩
      else s.inodes.get i := by
    intro i; rw [OMap.get_insert, OMap.get_insert]
  have hdd : ¬ Proper dotdot := proper_dotdot
  have hd : ¬ Proper dot := proper_dot
  constructor
  · refine List.pairwise_cons.2 ⟨?_, List.pairwise_cons.2 ⟨?_, List.pairwise_cons.2 ⟨?_, I.keys⟩⟩⟩
    · intro a ha hab
      rcases List.mem_cons.1 ha with rfl | ha
      · exact hpne hab.1
      · rcases List.mem_cons.1 ha with rfl | ha
        · exact hpne hab.1
        · exact hf a ha ⟨hab.1.symm, hab.2.symm⟩
    · intro a ha hab
      rcases List.mem_cons.1 ha with rfl | ha
      · exact absurd (show dotdot = dot from hab.2) (by decide)
      · exact hzd a ha hab.1.symm
    · intro a ha hab
      exact hzd a ha hab.1.symm
  · intro e he
    rw [hget]
    simp only [List.mem_cons] at he
    rcases he with rfl | rfl | rfl | he
    · exact ⟨kp + 1, by grind⟩
    · exact ⟨2, by grind⟩
    · exact ⟨2, by grind⟩
    · obtain ⟨m, h1⟩ := I.entDir e he
      by_cases hep : e.dir = p
      · exact ⟨kp + 1, by grind⟩
      · exact ⟨m, by grind⟩
  · intro e he
    rw [hget]
    simp only [List.mem_cons] at he
    rcases he with rfl | rfl | rfl | he
    · exact ⟨2, by grind⟩
    · exact ⟨kp + 1, by grind⟩
    · exact ⟨2, by grind⟩
    · obtain ⟨m, h1⟩ := I.entIno e he
      by_cases hep : e.ino = p
      · exact ⟨kp + 1, by grind⟩
      · exact ⟨m, by grind⟩
  · intro i m h1
    rw [hget] at h1
    rw [cI_cons, cI_cons, cI_cons]
    have := I.files i m
    grind
  · intro i m h1
    rw [hget] at h1
    rw [cS_cons, cS_cons, cS_cons]
    have := I.dirs i m
    have := I.dirs p kp hp
    grind
  · intro i m h1
    rw [hget] at h1
    rw [cI_cons, cI_cons, cI_cons]
    have := I.names i m
    have := I.names p kp hp
    grind
  · intro i m h1
    rw [hget] at h1
    have := I.dots i m
    have := I.dots p kp hp
    grind
  · intro i m h1 h2
    rw [hget] at h1
    by_cases h3 : i = s.next
    · subst h3
      exact ⟨p, n, hpn, by simp, by simp⟩
    · have h4 : ∃ m', s.inodes.get i = some ⟨true, m'⟩ := by
        by_cases h5 : i = p
        · exact ⟨kp, by rw [h5]; exact hp⟩
        · exact ⟨m, by grind⟩
      obtain ⟨m', h4⟩ := h4
      obtain ⟨q, m', a, b, c⟩ := I.dotdots i m' h4 h2
      exact ⟨q, m', a, by simp [b], by simp [c]⟩
  · simp [I.rootdd]
  · obtain ⟨m, h1⟩ := I.root
    by_cases h2 : p = 1
    · exact ⟨kp + 1, by rw [hget]; grind⟩
    · exact ⟨m, by rw [hget]; grind⟩
  · intro i x h1
    rw [hget] at h1
    have := I.next i x
    have := I.next p _ hp
    grind
  · intro x hx
    obtain ⟨m, h1⟩ := I.items x hx
    exact ⟨m, by rw [hget]; grind⟩
  · intro i h1
    rw [hget] at h1
    exact I.dyin i (by grind)
  · intro j i h1
    obtain ⟨h2, h3⟩ := I.dyout j i h1
    refine ⟨h2, ?_⟩
    rw [hget]; grind
  · exact (I.isorted.insert _ _).insert _ _
  · exact I.dsorted

/-- A new name of a file. -/
theorem Inv.addLink (I : Inv h s) {p i k : Nat} {n : Name} (hp : s.Dir p)
    (hi : s.inodes.get i = some ⟨false, k + 1⟩)
    (hf : ∀ e ∈ s.ents, ¬ (e.dir = p ∧ e.name = n)) :
    Inv h { s with
      inodes := s.inodes.insert i ⟨false, k + 2⟩
      ents := ⟨p, n, i, false⟩ :: s.ents } := by
  have hpn := I.proper hp hf
  obtain ⟨kp, hp⟩ := hp
  have hpne : p ≠ i := by rintro rfl; rw [hi] at hp; cases hp
  constructor
  · exact List.pairwise_cons.2 ⟨fun a ha hab => hf a ha ⟨hab.1.symm, hab.2.symm⟩, I.keys⟩
  · intro e he
    rw [OMap.get_insert]
    rcases List.mem_cons.1 he with rfl | he
    · exact ⟨kp, by grind⟩
    · obtain ⟨m, h1⟩ := I.entDir e he
      exact ⟨m, by grind⟩
  · intro e he
    rw [OMap.get_insert]
    rcases List.mem_cons.1 he with rfl | he
    · exact ⟨k + 2, by grind⟩
    · obtain ⟨m, h1⟩ := I.entIno e he
      by_cases hei : e.ino = i
      · exact ⟨k + 2, by grind⟩
      · exact ⟨m, by grind⟩
  · intro j m h1
    rw [OMap.get_insert] at h1
    rw [cI_cons]
    have := I.files j m
    have := I.files i _ hi
    grind
  · intro j m h1
    rw [OMap.get_insert] at h1
    rw [cS_cons]
    have := I.dirs j m
    grind
  · intro j m h1
    rw [OMap.get_insert] at h1
    rw [cI_cons]
    have := I.names j m
    grind
  · intro j m h1
    rw [OMap.get_insert] at h1
    have := I.dots j m
    grind
  · intro j m h1 h2
    rw [OMap.get_insert] at h1
    have h3 : s.inodes.get j = some ⟨true, m⟩ := by grind
    obtain ⟨q, m', a, b, c⟩ := I.dotdots j m h3 h2
    exact ⟨q, m', a, List.mem_cons_of_mem _ b, List.mem_cons_of_mem _ c⟩
  · exact List.mem_cons_of_mem _ I.rootdd
  · obtain ⟨m, h1⟩ := I.root
    exact ⟨m, by rw [OMap.get_insert]; grind⟩
  · intro j x h1
    rw [OMap.get_insert] at h1
    have := I.next j x
    have := I.next i _ hi
    grind
  · intro x hx
    obtain ⟨m, h1⟩ := I.items x hx
    by_cases h2 : x.1 = i
    · exact ⟨k + 2, by rw [OMap.get_insert]; grind⟩
    · exact ⟨m, by rw [OMap.get_insert]; grind⟩
  · intro j h1
    rw [OMap.get_insert] at h1
    exact I.dyin j (by grind)
  · intro q j h1
    obtain ⟨h2, h3⟩ := I.dyout q j h1
    refine ⟨h2, ?_⟩
    rw [OMap.get_insert]; grind
  · exact I.isorted.insert _ _
  · exact I.dsorted

/-- A name of a file goes, others stay. -/
theorem Inv.dropLink {e : Ent} {l : List Ent} (I : Inv h { s with ents := e :: l }) {k : Nat}
    (hf : e.isDir = false) (hi : s.inodes.get e.ino = some ⟨false, k + 2⟩) :
    Inv h { s with inodes := s.inodes.insert e.ino ⟨false, k + 1⟩, ents := l } := by
  have hpr : Proper e.name := Classical.not_not.1 fun hn => by
    have := (I.special (List.mem_cons_self ..) hn).1
    rw [hf] at this; cases this
  obtain ⟨hx, hk⟩ := List.pairwise_cons.1 I.keys
  have hmem : ∀ a ∈ l, a ∈ e :: l := fun a ha => List.mem_cons_of_mem _ ha
  have hback : ∀ a : Ent, a ∈ e :: l → a.isDir = true → a ∈ l := by
    intro a ha h1
    rcases List.mem_cons.1 ha with rfl | ha
    · rw [hf] at h1; cases h1
    · exact ha
  constructor
  · exact hk
  · intro a ha
    rw [OMap.get_insert]
    obtain ⟨m, h1⟩ := I.entDir a (hmem a ha)
    exact ⟨m, by grind⟩
  · intro a ha
    rw [OMap.get_insert]
    obtain ⟨m, h1⟩ := I.entIno a (hmem a ha)
    by_cases hei : a.ino = e.ino
    · exact ⟨k + 1, by grind⟩
    · exact ⟨m, by grind⟩
  · intro j m h1
    rw [OMap.get_insert] at h1
    have h2 := I.files j m
    have h3 := I.files e.ino _ hi
    rw [cI_cons] at h2 h3
    grind
  · intro j m h1
    rw [OMap.get_insert] at h1
    have h2 := I.dirs j m
    rw [cS_cons] at h2
    grind
  · intro j m h1
    rw [OMap.get_insert] at h1
    have h2 := I.names j m
    rw [cI_cons] at h2
    grind
  · intro j m h1
    rw [OMap.get_insert] at h1
    exact hback _ (I.dots j m (by grind)) rfl
  · intro j m h1 h2
    rw [OMap.get_insert] at h1
    have h3 : s.inodes.get j = some ⟨true, m⟩ := by grind
    obtain ⟨q, m', a, b, c⟩ := I.dotdots j m h3 h2
    exact ⟨q, m', a, hback _ b rfl, hback _ c rfl⟩
  · exact hback _ I.rootdd rfl
  · obtain ⟨m, h1⟩ := I.root
    exact ⟨m, by rw [OMap.get_insert]; grind⟩
  · intro j x h1
    rw [OMap.get_insert] at h1
    have := I.next j x
    have := I.next e.ino _ hi
    grind
  · intro x hx
    obtain ⟨m, h1⟩ := I.items x hx
    by_cases h2 : x.1 = e.ino
    · exact ⟨k + 1, by rw [OMap.get_insert]; grind⟩
    · exact ⟨m, by rw [OMap.get_insert]; grind⟩
  · intro j h1
    rw [OMap.get_insert] at h1
    exact I.dyin j (by grind)
  · intro q j h1
    obtain ⟨h2, h3⟩ := I.dyout q j h1
    refine ⟨h2, ?_⟩
    rw [OMap.get_insert]; grind
  · exact I.isorted.insert _ _
  · exact I.dsorted

/-- The last name of a file in use goes. -/
theorem Inv.dropLast {e : Ent} {l : List Ent} (I : Inv h { s with ents := e :: l })
    (hf : e.isDir = false) (hi : s.inodes.get e.ino = some ⟨false, 1⟩)
    (hd : s.dying.get (h e.ino) = none) :
    Inv h { s with
      inodes := s.inodes.insert e.ino ⟨false, 0⟩
      ents := l
      dying := s.dying.insert (h e.ino) e.ino } := by
  have hpr : Proper e.name := Classical.not_not.1 fun hn => by
    have := (I.special (List.mem_cons_self ..) hn).1
    rw [hf] at this; cases this
  obtain ⟨hx, hk⟩ := List.pairwise_cons.1 I.keys
  have hmem : ∀ a ∈ l, a ∈ e :: l := fun a ha => List.mem_cons_of_mem _ ha
  have hback : ∀ a : Ent, a ∈ e :: l → a.isDir = true → a ∈ l := by
    intro a ha h1
    rcases List.mem_cons.1 ha with rfl | ha
    · rw [hf] at h1; cases h1
    · exact ha
  constructor
  · exact hk
  · intro a ha
    rw [OMap.get_insert]
    obtain ⟨m, h1⟩ := I.entDir a (hmem a ha)
    exact ⟨m, by grind⟩
  · intro a ha
    rw [OMap.get_insert]
    obtain ⟨m, h1⟩ := I.entIno a (hmem a ha)
    by_cases hei : a.ino = e.ino
    · exact ⟨0, by grind⟩
    · exact ⟨m, by grind⟩
  · intro j m h1
    rw [OMap.get_insert] at h1
    have h2 := I.files j m
    have h3 := I.files e.ino _ hi
    rw [cI_cons] at h2 h3
    grind
  · intro j m h1
    rw [OMap.get_insert] at h1
    have h2 := I.dirs j m
    rw [cS_cons] at h2
    grind
  · intro j m h1
    rw [OMap.get_insert] at h1
    have h2 := I.names j m
    rw [cI_cons] at h2
    grind
  · intro j m h1
    rw [OMap.get_insert] at h1
    exact hback _ (I.dots j m (by grind)) rfl
  · intro j m h1 h2
    rw [OMap.get_insert] at h1
    have h3 : s.inodes.get j = some ⟨true, m⟩ := by grind
    obtain ⟨q, m', a, b, c⟩ := I.dotdots j m h3 h2
    exact ⟨q, m', a, hback _ b rfl, hback _ c rfl⟩
  · exact hback _ I.rootdd rfl
  · obtain ⟨m, h1⟩ := I.root
    exact ⟨m, by rw [OMap.get_insert]; grind⟩
  · intro j x h1
    rw [OMap.get_insert] at h1
    have := I.next j x
    have := I.next e.ino _ hi
    grind
  · intro x hx
    obtain ⟨m, h1⟩ := I.items x hx
    by_cases h2 : x.1 = e.ino
    · exact ⟨0, by rw [OMap.get_insert]; grind⟩
    · exact ⟨m, by rw [OMap.get_insert]; grind⟩
  · intro j h1
    rw [OMap.get_insert] at h1
    rw [OMap.get_insert]
    have := I.dyin j
    grind
  · intro q j h1
    rw [OMap.get_insert] at h1
    rw [OMap.get_insert]
    have := I.dyout q j
    grind
  · exact I.isorted.insert _ _
  · exact I.dsorted.insert _ _

/-- A file that is not in use goes with its last name. -/
theorem Inv.dropFile {e : Ent} {l : List Ent} (I : Inv h { s with ents := e :: l })
    (hf : e.isDir = false) (hi : s.inodes.get e.ino = some ⟨false, 1⟩) :
    Inv h { s with
      inodes := s.inodes.remove e.ino
      ents := l
      items := s.items.filter fun x => x.1 ≠ e.ino } := by
  have hpr : Proper e.name := Classical.not_not.1 fun hn => by
    have := (I.special (List.mem_cons_self ..) hn).1
    rw [hf] at this; cases this
  obtain ⟨hx, hk⟩ := List.pairwise_cons.1 I.keys
  have hmem : ∀ a ∈ l, a ∈ e :: l := fun a ha => List.mem_cons_of_mem _ ha
  have hback : ∀ a : Ent, a ∈ e :: l → a.isDir = true → a ∈ l := by
    intro a ha h1
    rcases List.mem_cons.1 ha with rfl | ha
    · rw [hf] at h1; cases h1
    · exact ha
  have hz : cI l e.ino = 0 := by
    have h3 := I.files e.ino _ hi
    rw [cI_cons] at h3
    grind
  have hno : ∀ a ∈ l, a.ino ≠ e.ino := by
    intro a ha h1
    obtain ⟨m, h2⟩ := I.entIno a (hmem a ha)
    rw [h1] at h2
    have h3 : s.inodes.get e.ino = some ⟨a.isDir, m⟩ := h2
    rw [hi] at h3
    have hb : a.isDir = false := by grind
    have hpa : Proper a.name := Classical.not_not.1 fun hn => by
      have := (I.special (hmem a ha) hn).1
      rw [hb] at this; cases this
    have := cI_pos.2 ⟨a, ha, h1, hpa⟩
    omega
  constructor
  · exact hk
  · intro a ha
    rw [OMap.get_remove]
    obtain ⟨m, h1⟩ := I.entDir a (hmem a ha)
    exact ⟨m, by grind⟩
  · intro a ha
    rw [OMap.get_remove]
    obtain ⟨m, h1⟩ := I.entIno a (hmem a ha)
    have := hno a ha
    exact ⟨m, by grind⟩
  · intro j m h1
    rw [OMap.get_remove] at h1
    have h2 := I.files j m
    rw [cI_cons] at h2
    grind
  · intro j m h1
    rw [OMap.get_remove] at h1
    have h2 := I.dirs j m
    rw [cS_cons] at h2
    grind
  · intro j m h1
    rw [OMap.get_remove] at h1
    have h2 := I.names j m
    rw [cI_cons] at h2
    grind
  · intro j m h1
    rw [OMap.get_remove] at h1
    exact hback _ (I.dots j m (by grind)) rfl
  · intro j m h1 h2
    rw [OMap.get_remove] at h1
    have h3 : s.inodes.get j = some ⟨true, m⟩ := by grind
    obtain ⟨q, m', a, b, c⟩ := I.dotdots j m h3 h2
    exact ⟨q, m', a, hback _ b rfl, hback _ c rfl⟩
  · exact hback _ I.rootdd rfl
  · obtain ⟨m, h1⟩ := I.root
    exact ⟨m, by rw [OMap.get_remove]; grind⟩
  · intro j x h1
    rw [OMap.get_remove] at h1
    exact I.next j x (by grind)
  · intro x hx
    rw [List.mem_filter] at hx
    obtain ⟨m, h1⟩ := I.items x hx.1
    exact ⟨m, by rw [OMap.get_remove]; grind⟩
  · intro j h1
    rw [OMap.get_remove] at h1
    exact I.dyin j (by grind)
  · intro q j h1
    obtain ⟨h2, h3⟩ := I.dyout q j h1
    refine ⟨h2, ?_⟩
    rw [OMap.get_remove]
    grind
  · exact I.isorted.remove _
  · exact I.dsorted

/-- A dying inode goes. -/
theorem Inv.dropDying (I : Inv h s) {i : Nat} (hi : s.inodes.get i = some ⟨false, 0⟩) :
    Inv h { s with
      inodes := s.inodes.remove i
      items := s.items.filter fun x => x.1 ≠ i
      dying := s.dying.remove (h i) } := by
  have hno : ∀ a ∈ s.ents, a.ino ≠ i := by
    intro a ha h1
    obtain ⟨m, h2⟩ := I.entIno a ha
    rw [h1, hi] at h2
    have hb : a.isDir = false := by grind
    have hpa : Proper a.name := Classical.not_not.1 fun hn => by
      have := (I.special ha hn).1
      rw [hb] at this; cases this
    have := cI_pos.2 ⟨a, ha, h1, hpa⟩
    have := I.files i _ hi
    omega
  have hdi := I.dyin i hi
  constructor
  · exact I.keys
  · intro a ha
    rw [OMap.get_remove]
    obtain ⟨m, h1⟩ := I.entDir a ha
    exact ⟨m, by grind⟩
  · intro a ha
    rw [OMap.get_remove]
    obtain ⟨m, h1⟩ := I.entIno a ha
    have := hno a ha
    exact ⟨m, by grind⟩
  · intro j m h1
    rw [OMap.get_remove] at h1
    exact I.files j m (by grind)
  · intro j m h1
    rw [OMap.get_remove] at h1
    exact I.dirs j m (by grind)
  · intro j m h1
    rw [OMap.get_remove] at h1
    exact I.names j m (by grind)
  · intro j m h1
    rw [OMap.get_remove] at h1
    exact I.dots j m (by grind)
  · intro j m h1 h2
    rw [OMap.get_remove] at h1
    exact I.dotdots j m (by grind) h2
  · exact I.rootdd
  · obtain ⟨m, h1⟩ := I.root
    exact ⟨m, by rw [OMap.get_remove]; grind⟩
  · intro j x h1
    rw [OMap.get_remove] at h1
    exact I.next j x (by grind)
  · intro x hx
    rw [List.mem_filter] at hx
    obtain ⟨m, h1⟩ := I.items x hx.1
    exact ⟨m, by rw [OMap.get_remove]; grind⟩
  · intro j h1
    rw [OMap.get_remove] at h1
    rw [OMap.get_remove]
    have h2 := I.dyin j
    grind
  · intro q j h1
    rw [OMap.get_remove] at h1
    rw [OMap.get_remove]
    have h2 := I.dyout q j
    grind
  · exact I.isorted.remove _
  · exact I.dsorted.remove _

/-- An empty directory goes. -/
theorem Inv.dropDir {i p kp : Nat} {n : Name} {l : List Ent}
    (I : Inv h { s with ents := ⟨p, n, i, true⟩ :: ⟨i, dot, i, true⟩ :: ⟨i, dotdot, p, true⟩ :: l })
    (hn : Proper n) (hl : ∀ a ∈ l, a.dir ≠ i) (hp : s.inodes.get p = some ⟨true, kp⟩) (hne : i ≠ p) :
    Inv h { s with
      inodes := (s.inodes.insert p ⟨true, kp - 1⟩).remove i
      ents := l } := by
  obtain ⟨hx, hk⟩ := List.pairwise_cons.1 I.keys
  have hk' := (List.pairwise_cons.1 (List.pairwise_cons.1 hk).2).2
  have hdd : ¬ Proper dotdot := proper_dotdot
  have hd : ¬ Proper dot := proper_dot
  have hmem : ∀ a ∈ l, a ∈ (⟨p, n, i, true⟩ : Ent) :: ⟨i, dot, i, true⟩ :: ⟨i, dotdot, p, true⟩ :: l :=
    fun a ha => by simp [ha]
  obtain ⟨ki, hi⟩ := I.entIno ⟨p, n, i, true⟩ (List.mem_cons_self ..)
  have hi : s.inodes.get i = some ⟨true, ki⟩ := hi
  have hni := I.names i _ hi
  have hsi := I.dirs p _ hp
  rw [cI_cons, cI_cons, cI_cons] at hni
  rw [cS_cons, cS_cons, cS_cons] at hsi
  have hi1 : i ≠ 1 := by rintro rfl; simp [hn] at hni
  have hz : cI l i = 0 := by simp [hn, hd, hdd, hi1] at hni; exact hni
  have hget : ∀ j, OMap.get ((s.inodes.insert p ⟨true, kp - 1⟩).remove i) j =
      if j = i then none else if j = p then some ⟨true, kp - 1⟩ else s.inodes.get j := by
    intro j; rw [OMap.get_remove, OMap.get_insert]
  -- nothing left names the directory
  have hno : ∀ a ∈ l, a.ino ≠ i := by
    intro a ha h1
    have hna : ¬ Proper a.name := fun hpa => by
      have := cI_pos.2 ⟨a, ha, h1, hpa⟩; omega
    have hda := hl a ha
    by_cases h2 : a.name = dot
    · have := (I.special (hmem a ha) hna).2 h2
      rw [h1] at this; exact hda this.symm
    · have h3 : a.name = dotdot := Classical.not_not.1 fun h3 => hna ⟨h2, h3⟩
      -- then `a.dir` is a subdirectory of `i`
      obtain ⟨m, h4⟩ := I.entDir a (hmem a ha)
      by_cases h5 : a.dir = 1
      · have := I.mem_key (hmem a ha) I.rootdd h5 h3
        rw [this] at h1; exact hi1 h1.symm
      · obtain ⟨q, m', c1, c2, c3⟩ := I.dotdots a.dir m h4 h5
        have := I.mem_key (hmem a ha) c3 rfl h3
        have hq : q = i := by rw [this] at h1; exact h1
        subst hq
        simp only [List.mem_cons] at c2
        rcases c2 with c2 | c2 | c2 | c2
        · injection c2 with c2; exact hne c2
        · injection c2 with _ c2; exact hd (c2 ▸ c1)
        · injection c2 with _ c2; exact hdd (c2 ▸ c1)
        · exact hl _ c2 rfl
  have hcs : ∀ j, j ≠ p → j ≠ i → cS ((⟨p, n, i, true⟩ : Ent) :: ⟨i, dot, i, true⟩ ::
      ⟨i, dotdot, p, true⟩ :: l) j = cS l j := by
    intro j h1 h2; rw [cS_cons, cS_cons, cS_cons]; grind
  have hci : ∀ j, j ≠ i → cI ((⟨p, n, i, true⟩ : Ent) :: ⟨i, dot, i, true⟩ ::
      ⟨i, dotdot, p, true⟩ :: l) j = cI l j := by
    intro j h1; rw [cI_cons, cI_cons, cI_cons]; grind
  have hold : ∀ j m, OMap.get ((s.inodes.insert p ⟨true, kp - 1⟩).remove i) j = some ⟨true, m⟩ →
      j ≠ i ∧ ∃ m', s.inodes.get j = some ⟨true, m'⟩ := by
    intro j m h1
    rw [hget] at h1
    by_cases h2 : j = i
    · simp [h2] at h1
    · refine ⟨h2, ?_⟩
      by_cases h3 : j = p
      · exact ⟨kp, h3 ▸ hp⟩
      · exact ⟨m, by grind⟩
  constructor
  · exact hk'
  · intro a ha
    rw [hget]
    obtain ⟨m, h1⟩ := I.entDir a (hmem a ha)
    have := hl a ha
    by_cases h2 : a.dir = p
    · exact ⟨kp - 1, by grind⟩
    · exact ⟨m, by grind⟩
  · intro a ha
    rw [hget]
    obtain ⟨m, h1⟩ := I.entIno a (hmem a ha)
    have := hno a ha
    by_cases h2 : a.ino = p
    · exact ⟨kp - 1, by grind⟩
    · exact ⟨m, by grind⟩
  · intro j m h1
    rw [hget] at h1
    have h2 := I.files j m
    have h3 := hci j
    grind
  · intro j m h1
    rw [hget] at h1
    have h2 := I.dirs j m
    have h3 := hcs j
    grind
  · intro j m h1
    obtain ⟨h2, m', h3⟩ := hold j m h1
    have h4 := I.names j m' h3
    rw [hci j h2] at h4
    exact h4
  · intro j m h1
    obtain ⟨h2, m', h3⟩ := hold j m h1
    have h4 := I.dots j m' h3
    simp only [List.mem_cons] at h4
    rcases h4 with h4 | h4 | h4 | h4
    · injection h4 with _ h4; exact absurd (h4 ▸ hn) hd
    · injection h4 with h4; exact absurd h4 h2
    · injection h4 with h4; exact absurd h4 h2
    · exact h4
  · intro j m h1 hj1
    obtain ⟨h2, m', h3⟩ := hold j m h1
    obtain ⟨q, nm, a, b, c⟩ := I.dotdots j m' h3 hj1
    refine ⟨q, nm, a, ?_, ?_⟩
    · simp only [List.mem_cons] at b
      rcases b with b | b | b | b
      · injection b with _ _ b; exact absurd b h2
      · injection b with _ b; exact absurd a (b ▸ hd)
      · injection b with _ b; exact absurd a (b ▸ hdd)
      · exact b
    · simp only [List.mem_cons] at c
      rcases c with c | c | c | c
      · injection c with _ c; exact absurd hn (c ▸ hdd)
      · injection c with c; exact absurd c h2
      · injection c with c; exact absurd c h2
      · exact c
  · have c := I.rootdd
    simp only [List.mem_cons] at c
    rcases c with c | c | c | c
    · injection c with _ c; exact absurd hn (c ▸ hdd)
    · injection c with c; exact absurd c.symm hi1
    · injection c with c; exact absurd c.symm hi1
    · exact c
  · obtain ⟨m, h1⟩ := I.root
    by_cases h2 : p = 1
    · exact ⟨kp - 1, by rw [hget]; grind⟩
    · exact ⟨m, by rw [hget]; grind⟩
  · intro j x h1
    rw [hget] at h1
    have := I.next j x
    have := I.next p _ hp
    grind
  · intro x hx
    obtain ⟨m, h1⟩ := I.items x hx
    exact ⟨m, by rw [hget]; grind⟩
  · intro j h1
    rw [hget] at h1
    exact I.dyin j (by grind)
  · intro q j h1
    obtain ⟨h2, h3⟩ := I.dyout q j h1
    refine ⟨h2, ?_⟩
    rw [hget]; grind
  · exact (I.isorted.insert _ _).remove _
  · exact I.dsorted

/-- A name moves: a file to any directory, a directory within its parent. -/
theorem Inv.move {e : Ent} {l : List Ent} (I : Inv h { s with ents := e :: l }) {np : Nat}
    {nn : Name} (hpr : Proper e.name) (hnn : Proper nn) (hnp : s.Dir np)
    (hb : e.isDir = true → np = e.dir) (hf : ∀ a ∈ l, ¬ (a.dir = np ∧ a.name = nn)) :
    Inv h { s with ents := ⟨np, nn, e.ino, e.isDir⟩ :: l } := by
  obtain ⟨hx, hk⟩ := List.pairwise_cons.1 I.keys
  have hmem : ∀ a ∈ l, a ∈ e :: l := fun a ha => List.mem_cons_of_mem _ ha
  have hci : ∀ j, cI (⟨np, nn, e.ino, e.isDir⟩ :: l) j = cI (e :: l) j := by
    intro j; rw [cI_cons, cI_cons]; grind
  have hcs : ∀ j, cS (⟨np, nn, e.ino, e.isDir⟩ :: l) j = cS (e :: l) j := by
    intro j; rw [cS_cons, cS_cons]; grind
  have hback : ∀ a : Ent, a ∈ e :: l → ¬ Proper a.name → a ∈ l := by
    intro a ha h1
    rcases List.mem_cons.1 ha with rfl | ha
    · exact absurd hpr h1
    · exact ha
  obtain ⟨knp, hnp⟩ := hnp
  constructor
  · exact List.pairwise_cons.2 ⟨fun a ha hab => hf a ha ⟨hab.1.symm, hab.2.symm⟩, hk⟩
  · intro a ha
    rcases List.mem_cons.1 ha with rfl | ha
    · exact ⟨_, hnp⟩
    · exact I.entDir a (hmem a ha)
  · intro a ha
    rcases List.mem_cons.1 ha with rfl | ha
    · exact I.entIno e (List.mem_cons_self ..)
    · exact I.entIno a (hmem a ha)
  · intro j m h1; rw [hci]; exact I.files j m h1
  · intro j m h1; rw [hcs]; exact I.dirs j m h1
  · intro j m h1; rw [hci]; exact I.names j m h1
  · intro j m h1
    exact List.mem_cons_of_mem _ (hback _ (I.dots j m h1) proper_dot)
  · intro j m h1 h2
    obtain ⟨q, m', a, b, c⟩ := I.dotdots j m h1 h2
    have hc := List.mem_cons_of_mem (⟨np, nn, e.ino, e.isDir⟩ : Ent) (hback _ c proper_dotdot)
    rcases List.mem_cons.1 b with b | b
    · have hd : e.isDir = true := by rw [← b]
      have hi : e.ino = j := by rw [← b]
      have hq : np = q := by rw [hb hd, ← b]
      refine ⟨q, nn, hnn, ?_, hc⟩
      rw [hd, hi, hq]; exact List.mem_cons_self ..
    · exact ⟨q, m', a, List.mem_cons_of_mem _ b, hc⟩
  · exact List.mem_cons_of_mem _ (hback _ I.rootdd proper_dotdot)
  · exact I.root
  · exact I.next
  · exact I.items
  · exact I.dyin
  · exact I.dyout
  · exact I.isorted
  · exact I.dsorted

/-- A directory moves to another parent. -/
theorem Inv.moveDir {i p np kp knp : Nat} {n nn : Name} {l : List Ent}
    (I : Inv h { s with ents := ⟨p, n, i, true⟩ :: ⟨i, dotdot, p, true⟩ :: l })
    (hpr : Proper n) (hnn : Proper nn) (hne : p ≠ np)
    (hp : s.inodes.get p = some ⟨true, kp⟩) (hnp : s.inodes.get np = some ⟨true, knp⟩)
    (hf : ∀ a ∈ l, ¬ (a.dir = np ∧ a.name = nn)) :
    Inv h { s with
      inodes := (s.inodes.insert p ⟨true, kp - 1⟩).insert np ⟨true, knp + 1⟩
      ents := ⟨np, nn, i, true⟩ :: ⟨i, dotdot, np, true⟩ :: l } := by
  have hdd : ¬ Proper dotdot := proper_dotdot
  have hd : ¬ Proper dot := proper_dot
  obtain ⟨hx, hk⟩ := List.pairwise_cons.1 I.keys
  obtain ⟨hx2, hk⟩ := List.pairwise_cons.1 hk
  have hmem : ∀ a ∈ l, a ∈ (⟨p, n, i, true⟩ : Ent) :: ⟨i, dotdot, p, true⟩ :: l :=
    fun a ha => by simp [ha]
  have hget : ∀ j, OMap.get ((s.inodes.insert p ⟨true, kp - 1⟩).insert np ⟨true, knp + 1⟩) j =
      if j = np then some ⟨true, knp + 1⟩ else if j = p then some ⟨true, kp - 1⟩
      else s.inodes.get j := by
    intro j; rw [OMap.get_insert, OMap.get_insert]
  have hold : ∀ j m, OMap.get ((s.inodes.insert p ⟨true, kp - 1⟩).insert np ⟨true, knp + 1⟩) j =
      some ⟨true, m⟩ → ∃ m', s.inodes.get j = some ⟨true, m'⟩ := by
    intro j m h1
    rw [hget] at h1
    by_cases h2 : j = np
    · exact ⟨_, h2 ▸ hnp⟩
    · by_cases h3 : j = p
      · exact ⟨kp, h3 ▸ hp⟩
      · exact ⟨m, by grind⟩
  have hnew : ∀ j b m, s.inodes.get j = some ⟨b, m⟩ →
      ∃ m', OMap.get ((s.inodes.insert p ⟨true, kp - 1⟩).insert np ⟨true, knp + 1⟩) j =
        some ⟨b, m'⟩ := by
    intro j b m h1
    rw [hget]
    by_cases h2 : j = np
    · exact ⟨knp + 1, by grind⟩
    · by_cases h3 : j = p
      · exact ⟨kp - 1, by grind⟩
      · exact ⟨m, by grind⟩
  have hci : ∀ j, cI ((⟨np, nn, i, true⟩ : Ent) :: ⟨i, dotdot, np, true⟩ :: l) j =
      cI ((⟨p, n, i, true⟩ : Ent) :: ⟨i, dotdot, p, true⟩ :: l) j := by
    intro j; rw [cI_cons, cI_cons, cI_cons, cI_cons]; grind
  obtain ⟨ki, hi⟩ := I.entIno ⟨p, n, i, true⟩ (List.mem_cons_self ..)
  have hi : s.inodes.get i = some ⟨true, ki⟩ := hi
  have hni := I.names i _ hi
  rw [cI_cons, cI_cons] at hni
  have hi1 : i ≠ 1 := by rintro rfl; simp [hpr] at hni
  have hz : cI l i = 0 := by simp [hpr, hdd, hi1] at hni; exact hni
  have hback : ∀ a : Ent, a ∈ (⟨p, n, i, true⟩ : Ent) :: ⟨i, dotdot, p, true⟩ :: l →
      ¬ Proper a.name → (a.name = dotdot → a.dir ≠ i) → a ∈ l := by
    intro a ha h1 h2
    simp only [List.mem_cons] at ha
    rcases ha with rfl | rfl | ha
    · exact absurd hpr h1
    · exact absurd rfl (h2 rfl)
    · exact ha
  constructor
  · refine List.pairwise_cons.2 ⟨fun a ha hab => ?_, List.pairwise_cons.2 ⟨?_, hk⟩⟩
    · rcases List.mem_cons.1 ha with rfl | ha
      · exact hdd ((show nn = dotdot from hab.2) ▸ hnn)
      · exact hf a ha ⟨hab.1.symm, hab.2.symm⟩
    · intro a ha hab
      exact hx2 a ha hab
  · intro a ha
    simp only [List.mem_cons] at ha
    rcases ha with rfl | rfl | ha
    · exact hnew _ _ _ hnp
    · exact hnew _ _ _ hi
    · obtain ⟨m, h1⟩ := I.entDir a (hmem a ha)
      exact hnew _ _ _ h1
  · intro a ha
    simp only [List.mem_cons] at ha
    rcases ha with rfl | rfl | ha
    · exact hnew _ _ _ hi
    · exact hnew _ _ _ hnp
    · obtain ⟨m, h1⟩ := I.entIno a (hmem a ha)
      exact hnew _ _ _ h1
  · intro j m h1
    rw [hget] at h1
    rw [hci]
    exact I.files j m (by grind)
  · intro j m h1
    rw [hget] at h1
    have h2 := I.dirs j m
    have h3 := I.dirs p _ hp
    have h4 := I.dirs np _ hnp
    rw [cS_cons, cS_cons] at h2 h3 h4
    rw [cS_cons, cS_cons]
    grind
  · intro j m h1
    obtain ⟨m', h3⟩ := hold j m h1
    rw [hci]
    exact I.names j m' h3
  · intro j m h1
    obtain ⟨m', h3⟩ := hold j m h1
    have := hback _ (I.dots j m' h3) hd (fun h4 => absurd (show dot = dotdot from h4) (by decide))
    simp [this]
  · intro j m h1 hj1
    obtain ⟨m', h3⟩ := hold j m h1
    by_cases hji : j = i
    · subst hji
      exact ⟨np, nn, hnn, by simp, by simp⟩
    · obtain ⟨q, nm, a, b, c⟩ := I.dotdots j m' h3 hj1
      have hc := hback _ c hdd fun _ => hji
      refine ⟨q, nm, a, ?_, by simp [hc]⟩
      simp only [List.mem_cons] at b
      rcases b with b | b | b
      · injection b with _ _ b; exact absurd b hji
      · injection b with _ b; exact absurd a (b ▸ hdd)
      · simp [b]
  · have := hback _ I.rootdd hdd fun _ => hi1.symm
    simp [this]
  · obtain ⟨m, h1⟩ := I.root
    exact hnew _ _ _ h1
  · intro j x h1
    rw [hget] at h1
    have := I.next j x
    have := I.next p _ hp
    have := I.next np _ hnp
    grind
  · intro x hx
    obtain ⟨m, h1⟩ := I.items x hx
    exact hnew _ _ _ h1
  · intro j h1
    rw [hget] at h1
    exact I.dyin j (by grind)
  · intro q j h1
    obtain ⟨h2, h3⟩ := I.dyout q j h1
    refine ⟨h2, ?_⟩
    rw [hget]; grind
  · exact (I.isorted.insert _ _).insert _ _
  · exact I.dsorted

end Verif.Namespace
