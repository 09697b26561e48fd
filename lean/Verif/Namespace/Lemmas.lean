import Verif.Namespace.Spec

/-! Invariant of the namespace and its preservation by each elementary change. -/

namespace Verif.Namespace

open Verif

/-- Entries with different keys. -/
def Apart (a b : Ent) : Prop := ¬ (a.dir = b.dir ∧ a.name = b.name)

/-- Entries naming `i`. -/
def cI (l : List Ent) (i : Nat) : Nat := l.countP fun e => e.ino = i ∧ Proper e.name

/-- Subdirectories of `d`. -/
def cS (l : List Ent) (d : Nat) : Nat := l.countP fun e => e.dir = d ∧ e.isDir = true ∧ Proper e.name

/-- The invariant, in a form that depends on the inode table only through lookups and on the
entry list only up to order. -/
structure Inv (h : Nat → Nat) (s : FS) : Prop where
  keys : s.ents.Pairwise Apart
  entDir : ∀ e ∈ s.ents, ∃ n, s.inodes.get e.dir = some ⟨true, n⟩
  entIno : ∀ e ∈ s.ents, ∃ n, s.inodes.get e.ino = some ⟨e.isDir, n⟩
  files : ∀ i n, s.inodes.get i = some ⟨false, n⟩ → n = cI s.ents i
  dirs : ∀ i n, s.inodes.get i = some ⟨true, n⟩ → n = (if i = 1 then 1 else 2) + cS s.ents i
  names : ∀ i n, s.inodes.get i = some ⟨true, n⟩ → cI s.ents i = if i = 1 then 0 else 1
  dots : ∀ i n, s.inodes.get i = some ⟨true, n⟩ → (⟨i, dot, i, true⟩ : Ent) ∈ s.ents
  dotdots : ∀ i n, s.inodes.get i = some ⟨true, n⟩ → i ≠ 1 →
    ∃ p m, Proper m ∧ (⟨p, m, i, true⟩ : Ent) ∈ s.ents ∧ (⟨i, dotdot, p, true⟩ : Ent) ∈ s.ents
  rootdd : (⟨1, dotdot, 1, true⟩ : Ent) ∈ s.ents
  root : ∃ n, s.inodes.get 1 = some ⟨true, n⟩
  next : ∀ i x, s.inodes.get i = some x → i < s.next
  items : ∀ it ∈ s.items, ∃ n, s.inodes.get it.1 = some ⟨false, n⟩
  dyin : ∀ i, s.inodes.get i = some ⟨false, 0⟩ → s.dying.get (h i) = some i
  dyout : ∀ k i, s.dying.get k = some i → k = h i ∧ s.inodes.get i = some ⟨false, 0⟩
  isorted : s.inodes.Sorted
  dsorted : s.dying.Sorted

theorem Apart.symm {a b : Ent} (h : Apart a b) : Apart b a := by
  unfold Apart at *; grind

theorem nodup_of_keys {l : List Ent} (h : l.Pairwise Apart) : l.Nodup := by
  refine List.Pairwise.imp ?_ h
  intro a b hab he; subst he; exact hab ⟨rfl, rfl⟩

theorem eq_of_key {l : List Ent} (h : l.Pairwise Apart) {a b : Ent} (ha : a ∈ l) (hb : b ∈ l)
    (hd : a.dir = b.dir) (hn : a.name = b.name) : a = b := by
  induction l with
  | nil => cases ha
  | cons x l ih =>
    obtain ⟨hx, hl⟩ := List.pairwise_cons.1 h
    rcases List.mem_cons.1 ha with rfl | ha' <;> rcases List.mem_cons.1 hb with rfl | hb'
    · rfl
    · exact absurd ⟨hd, hn⟩ (hx b hb')
    · exact absurd ⟨hd.symm, hn.symm⟩ (hx a ha')
    · exact ih hl ha' hb'

theorem perm_of_keys {l m : List Ent} (hl : l.Pairwise Apart) (hm : m.Pairwise Apart)
    (h : ∀ e, e ∈ l ↔ e ∈ m) : l.Perm m :=
  (List.perm_ext_iff_of_nodup (nodup_of_keys hl) (nodup_of_keys hm)).2 h

theorem lookup_some {l : List Ent} {d : Nat} {n : Name} {e : Ent} (h : lookup l d n = some e) :
    e ∈ l ∧ e.dir = d ∧ e.name = n := by
  have h1 := List.mem_of_find?_eq_some h
  have h2 := List.find?_some h
  simp only [Ent.at, decide_eq_true_eq] at h2
  exact ⟨h1, h2⟩

theorem lookup_none {l : List Ent} {d : Nat} {n : Name} (h : lookup l d n = none) (e : Ent)
    (he : e ∈ l) : ¬ (e.dir = d ∧ e.name = n) := by
  have := List.find?_eq_none.1 h e he
  simpa [Ent.at] using this

theorem lookup_of_mem {l : List Ent} (hk : l.Pairwise Apart) {e : Ent} (he : e ∈ l) :
    lookup l e.dir e.name = some e := by
  cases hl : lookup l e.dir e.name with
  | none => exact absurd ⟨rfl, rfl⟩ (lookup_none hl e he)
  | some e' =>
    obtain ⟨h1, h2, h3⟩ := lookup_some hl
    rw [eq_of_key hk h1 he h2 h3]

theorem mem_erase {l : List Ent} {d : Nat} {n : Name} {e : Ent} :
    e ∈ erase l d n ↔ e ∈ l ∧ ¬ (e.dir = d ∧ e.name = n) := by
  simp [erase, Ent.at, List.mem_filter]; grind

theorem erase_keys {l : List Ent} (h : l.Pairwise Apart) (d : Nat) (n : Name) :
    (erase l d n).Pairwise Apart := List.Pairwise.filter _ h

theorem put_keys {l : List Ent} (h : l.Pairwise Apart) (e : Ent) :
    (put l e).2.Pairwise Apart := by
  refine List.pairwise_cons.2 ⟨?_, erase_keys h _ _⟩
  intro a ha hab
  exact (mem_erase.1 ha).2 ⟨hab.1.symm, hab.2.symm⟩

theorem mem_put {l : List Ent} {e a : Ent} :
    a ∈ (put l e).2 ↔ a = e ∨ (a ∈ l ∧ ¬ (a.dir = e.dir ∧ a.name = e.name)) := by
  simp only [put, List.mem_cons, mem_erase]

theorem Inv.mem_key {h : Nat → Nat} {s : FS} (I : Inv h s) {a b : Ent} (ha : a ∈ s.ents)
    (hb : b ∈ s.ents) (hd : a.dir = b.dir) (hn : a.name = b.name) : a = b :=
  eq_of_key I.keys ha hb hd hn

/-- The invariant moves along states that look the same. -/
theorem Inv.congr {h : Nat → Nat} {s t : FS} (I : Inv h s) (hk : t.ents.Pairwise Apart)
    (he : ∀ e, e ∈ t.ents ↔ e ∈ s.ents) (hi : ∀ i, t.inodes.get i = s.inodes.get i)
    (hs : t.inodes.Sorted) (hit : ∀ x, x ∈ t.items → x ∈ s.items)
    (hd : t.dying = s.dying) (hn : s.next ≤ t.next) : Inv h t := by
  have hp : t.ents.Perm s.ents := perm_of_keys hk I.keys he
  have e1 : ∀ i, cI t.ents i = cI s.ents i := fun i => hp.countP_eq _
  have e2 : ∀ i, cS t.ents i = cS s.ents i := fun i => hp.countP_eq _
  constructor
  · exact hk
  · intro e h1; rw [hi]; exact I.entDir e ((he e).1 h1)
  · intro e h1; rw [hi]; exact I.entIno e ((he e).1 h1)
  · intro i n h1; rw [e1]; exact I.files i n (by rw [← hi]; exact h1)
  · intro i n h1; rw [e2]; exact I.dirs i n (by rw [← hi]; exact h1)
  · intro i n h1; rw [e1]; exact I.names i n (by rw [← hi]; exact h1)
  · intro i n h1; exact (he _).2 (I.dots i n (by rw [← hi]; exact h1))
  · intro i n h1 h2
    obtain ⟨p, m, a, b, c⟩ := I.dotdots i n (by rw [← hi]; exact h1) h2
    exact ⟨p, m, a, (he _).2 b, (he _).2 c⟩
  · exact (he _).2 I.rootdd
  · rw [hi]; exact I.root
  · intro i x h1; exact Nat.lt_of_lt_of_le (I.next i x (by rw [← hi]; exact h1)) hn
  · intro x h1; rw [hi]; exact I.items x (hit x h1)
  · intro i h1; rw [hd]; exact I.dyin i (by rw [← hi]; exact h1)
  · intro k i h1; rw [hi]; exact I.dyout k i (by rw [← hd]; exact h1)
  · exact hs
  · rw [hd]; exact I.dsorted

/-- "." and ".." entries are the ones of `dots` and `dotdots`. -/
theorem Inv.special {h : Nat → Nat} {s : FS} (I : Inv h s) {e : Ent} (he : e ∈ s.ents)
    (hn : ¬ Proper e.name) : e.isDir = true ∧ (e.name = dot → e.ino = e.dir) := by
  obtain ⟨n, hd⟩ := I.entDir e he
  by_cases h1 : e.name = dot
  · have := I.mem_key he (I.dots _ _ hd) rfl h1
    constructor
    · rw [this]
    · intro _; rw [this]
  · have h2 : e.name = dotdot := Classical.not_not.1 fun h2 => hn ⟨h1, h2⟩
    refine ⟨?_, fun h3 => absurd h3 h1⟩
    by_cases hr : e.dir = 1
    · have := I.mem_key he I.rootdd hr h2
      rw [this]
    · obtain ⟨p, m, _, _, hc⟩ := I.dotdots _ _ hd hr
      have := I.mem_key he hc rfl h2
      rw [this]

theorem cI_cons (e : Ent) (l : List Ent) (i : Nat) :
    cI (e :: l) i = cI l i + if e.ino = i ∧ Proper e.name then 1 else 0 := by
  simp [cI, List.countP_cons]

theorem cS_cons (e : Ent) (l : List Ent) (i : Nat) :
    cS (e :: l) i = cS l i + if e.dir = i ∧ e.isDir = true ∧ Proper e.name then 1 else 0 := by
  simp [cS, List.countP_cons]

theorem cI_pos {l : List Ent} {i : Nat} : 0 < cI l i ↔ ∃ e ∈ l, e.ino = i ∧ Proper e.name := by
  simp [cI, List.countP_pos_iff]

theorem cS_pos {l : List Ent} {d : Nat} :
    0 < cS l d ↔ ∃ e ∈ l, e.dir = d ∧ e.isDir = true ∧ Proper e.name := by
  simp [cS, List.countP_pos_iff]

theorem cI_zero {l : List Ent} {i : Nat} (h : ∀ e ∈ l, e.ino ≠ i) : cI l i = 0 := by
  apply Nat.eq_zero_of_not_pos; intro hp
  obtain ⟨e, he, h1, _⟩ := cI_pos.1 hp
  exact h e he h1

theorem cS_zero {l : List Ent} {d : Nat} (h : ∀ e ∈ l, e.dir ≠ d) : cS l d = 0 := by
  apply Nat.eq_zero_of_not_pos; intro hp
  obtain ⟨e, he, h1, _⟩ := cS_pos.1 hp
  exact h e he h1

theorem proper_dot : ¬ Proper dot := fun h => h.1 rfl
theorem proper_dotdot : ¬ Proper dotdot := fun h => h.2 rfl

/-- A free name in a directory is neither "." nor "..". -/
theorem Inv.proper {h : Nat → Nat} {s : FS} (I : Inv h s) {p : Nat} {n : Name} (hp : s.Dir p)
    (hf : ∀ e ∈ s.ents, ¬ (e.dir = p ∧ e.name = n)) : Proper n := by
  obtain ⟨k, hp⟩ := hp
  refine ⟨fun h1 => ?_, fun h1 => ?_⟩
  · exact hf _ (I.dots p k hp) ⟨rfl, h1.symm⟩
  · by_cases hr : p = 1
    · subst hr; exact hf _ I.rootdd ⟨rfl, h1.symm⟩
    · obtain ⟨q, m, _, _, hc⟩ := I.dotdots p k hp hr
      exact hf _ hc ⟨rfl, h1.symm⟩

/-- Numbers at or above the counter are unused. -/
theorem Inv.fresh {h : Nat → Nat} {s : FS} (I : Inv h s) {i : Nat} (hi : s.next ≤ i) :
    s.inodes.get i = none := by
  cases hg : s.inodes.get i with
  | none => rfl
  | some x => have := I.next i x hg; omega

/-- The new inode of a create. -/
theorem Inv.addFile {h : Nat → Nat} {s : FS} (I : Inv h s) {p : Nat} {n : Name} (hp : s.Dir p)
    (hf : ∀ e ∈ s.ents, ¬ (e.dir = p ∧ e.name = n)) :
    Inv h { s with
      inodes := s.inodes.insert s.next ⟨false, 1⟩
      ents := ⟨p, n, s.next, false⟩ :: s.ents
      next := s.next + 1 } := by
  have hpn := I.proper hp hf
  have hfr := I.fresh (Nat.le_refl s.next)
  have hz : cI s.ents s.next = 0 := cI_zero fun e he h1 => by
    obtain ⟨k, h2⟩ := I.entIno e he; rw [h1, hfr] at h2; cases h2
  obtain ⟨k, hp⟩ := hp
  have hpne : p ≠ s.next := by rintro rfl; rw [hfr] at hp; cases hp
  constructor
  · exact List.pairwise_cons.2 ⟨fun a ha hab => hf a ha ⟨hab.1.symm, hab.2.symm⟩, I.keys⟩
  · intro e he
    rw [OMap.get_insert]
    rcases List.mem_cons.1 he with rfl | he
    · exact ⟨k, by grind⟩
    · obtain ⟨m, h1⟩ := I.entDir e he
      exact ⟨m, by grind⟩
  · intro e he
    rw [OMap.get_insert]
    rcases List.mem_cons.1 he with rfl | he
    · exact ⟨1, by grind⟩
    · obtain ⟨m, h1⟩ := I.entIno e he
      exact ⟨m, by grind⟩
  · intro i m h1
    rw [OMap.get_insert] at h1
    rw [cI_cons]
    have := I.files i m
    grind
  · intro i m h1
    rw [OMap.get_insert] at h1
    rw [cS_cons]
    have := I.dirs i m
    grind
  · intro i m h1
    rw [OMap.get_insert] at h1
    rw [cI_cons]
    have := I.names i m
    grind
  · intro i m h1
    rw [OMap.get_insert] at h1
    have := I.dots i m
    grind
  · intro i m h1 h2
    rw [OMap.get_insert] at h1
    have h3 : s.inodes.get i = some ⟨true, m⟩ := by grind
    obtain ⟨q, m', a, b, c⟩ := I.dotdots i m h3 h2
    exact ⟨q, m', a, List.mem_cons_of_mem _ b, List.mem_cons_of_mem _ c⟩
  · exact List.mem_cons_of_mem _ I.rootdd
  · obtain ⟨m, h1⟩ := I.root
    exact ⟨m, by rw [OMap.get_insert]; grind⟩
  · intro i x h1
    rw [OMap.get_insert] at h1
    have := I.next i x
    grind
  · intro x hx
    obtain ⟨m, h1⟩ := I.items x hx
    exact ⟨m, by rw [OMap.get_insert]; grind⟩
  · intro i h1
    rw [OMap.get_insert] at h1
    exact I.dyin i (by grind)
  · intro j i h1
    obtain ⟨h2, h3⟩ := I.dyout j i h1
    refine ⟨h2, ?_⟩
    rw [OMap.get_insert]; grind
  · exact I.isorted.insert _ _
  · exact I.dsorted

end Verif.Namespace
