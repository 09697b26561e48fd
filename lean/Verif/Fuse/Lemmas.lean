import Verif.Fuse.Spec
import Verif.Namespace.History

/-!
# The invariant of the daemon and the kernel
-/

namespace Verif.Fuse

open Verif Verif.Namespace

variable {h : Nat → Nat} {s t : FS}

theorem NameMap.get_erase {V : Type} (m : NameMap V) (p : Nat) (n : Name) (p' : Nat) (n' : Name) :
    (m.erase p n).get p' n' = if p' = p ∧ n' = n then none else m.get p' n' := by
  induction m with
  | nil => simp [NameMap.get, NameMap.erase]
  | cons x m ih =>
    obtain ⟨⟨a, b⟩, v⟩ := x
    simp only [NameMap.get, NameMap.erase] at ih ⊢
    by_cases h1 : (a, b) = (p, n)
    · rw [List.filter_cons_of_neg (by simpa using h1), ih]
      injection h1 with h1 h2
      subst h1; subst h2
      by_cases hk : p' = a ∧ n' = b
      · rw [if_pos hk, if_pos hk]
      · rw [if_neg hk, if_neg hk, List.find?_cons_of_neg]
        simp; grind
    · rw [List.filter_cons_of_pos (by exact decide_eq_true h1)]
      by_cases h2 : (a, b) = (p', n')
      · rw [List.find?_cons_of_pos (by simpa using h2), List.find?_cons_of_pos (by simpa using h2)]
        rw [h2] at h1
        rw [if_neg]
        rintro ⟨rfl, rfl⟩; exact h1 rfl
      · rw [List.find?_cons_of_neg (by simpa using h2), List.find?_cons_of_neg (by simpa using h2), ih]

theorem NameMap.get_set {V : Type} (m : NameMap V) (p : Nat) (n : Name) (v : V) (p' : Nat)
    (n' : Name) :
    (m.set p n v).get p' n' = if p' = p ∧ n' = n then some v else m.get p' n' := by
  have he := NameMap.get_erase m p n p' n'
  by_cases hk : p' = p ∧ n' = n
  · rw [if_pos hk, hk.1, hk.2]
    simp [NameMap.get, NameMap.set]
  · rw [if_neg hk] at he ⊢
    rw [← he]
    have : ¬ ((p, n) = (p', n')) := by
      intro h2; injection h2 with h2 h3; exact hk ⟨h2.symm, h3.symm⟩
    simp [NameMap.get, NameMap.set, this]

/-- The table's update in `cache_file`. -/
def addFd (files : OMap Fd) (i : Nat) (fd : Fd) : OMap Fd :=
  match files.get i with
  | some o => files.insert i { o with count := o.count + fd.count }
  | none => files.insert i fd

theorem get_addFd (files : OMap Fd) (i : Nat) (fd : Fd) (j : Nat) :
    (addFd files i fd).get j = if j = i then
      some (match files.get i with
        | some o => { o with count := o.count + fd.count }
        | none => fd) else files.get j := by
  unfold addFd
  cases files.get i <;> simp only [OMap.get_insert]

/-- The table of inodes agrees with the kernel. -/
structure Tab (files : OMap Fd) (held : OMap (Nat × Bool)) : Prop where
  root : files.get 1 = some ⟨none, 1⟩
  hroot : held.get 1 = none
  table : ∀ i, i ≠ 1 → (files.get i).map (·.count) = (held.get i).map (·.1)
  pos : ∀ i c b, held.get i = some (c, b) → 0 < c
  fsorted : files.Sorted
  hsorted : held.Sorted

/-- What the table says about kinds and parents is right. -/
structure Typ (files : OMap Fd) (held : OMap (Nat × Bool)) (s : FS) : Prop where
  below : ∀ i x, held.get i = some x → i < s.next
  kinds : ∀ p n i b c b', Proper n → s.Named p n i b → held.get i = some (c, b') → b' = b
  dirs : ∀ i fd c, files.get i = some fd → held.get i = some (c, true) →
    ∃ q, fd.parent = some q ∧ ∀ p n, Proper n → s.Named p n i true → p = q
  files : ∀ i fd c, files.get i = some fd → held.get i = some (c, false) → fd.parent = none

/-- The name caches are right. -/
structure Nm (names : NameMap Nat) (dcache : NameMap (Option Nat)) (s : FS) : Prop where
  names : ∀ p n i, names.get p n = some i ↔ dcache.get p n = some (some i)
  known : ∀ p n i, dcache.get p n = some (some i) → Proper n ∧ ∃ b, s.Named p n i b
  free : ∀ p n, dcache.get p n = some none → Proper n ∧ ¬ s.Taken p n

/-- Files the kernel holds exist, and those that have no name are held. -/
structure Use (held : OMap (Nat × Bool)) (replaced : List Nat) (s : FS) : Prop where
  dead : ∀ i, s.inodes.get i = some ⟨false, 0⟩ → ∃ c, held.get i = some (c, false)
  live : ∀ i c, held.get i = some (c, false) → i ∉ replaced → s.File i

/-- All directories are below the root. -/
def Tree (s : FS) : Prop := ∀ i, s.Dir i → FS.Rooted s i

/-- The invariant. -/
structure Good (h : Nat → Nat) (x : Sys) : Prop where
  fs : Inv h x.d.fs
  tree : Tree x.d.fs
  tab : Tab x.d.files x.k.held
  typ : Typ x.d.files x.k.held x.d.fs
  nm : Nm x.d.names x.k.dcache x.d.fs
  use : Use x.k.held x.k.replaced x.d.fs

/-! ## The table -/

theorem Tab.of_held {files : OMap Fd} {held : OMap (Nat × Bool)} (T : Tab files held) {i c : Nat}
    {b : Bool} (hi : held.get i = some (c, b)) :
    i ≠ 1 ∧ 0 < c ∧ ∃ fd, files.get i = some fd ∧ fd.count = c := by
  have h1 : i ≠ 1 := by rintro rfl; rw [T.hroot] at hi; cases hi
  have h2 := T.table i h1
  rw [hi] at h2
  refine ⟨h1, T.pos i c b hi, ?_⟩
  cases hf : files.get i with
  | none => rw [hf] at h2; cases h2
  | some fd => rw [hf] at h2; injection h2 with h2; exact ⟨fd, rfl, h2⟩

theorem Tab.of_file {files : OMap Fd} {held : OMap (Nat × Bool)} (T : Tab files held) {i : Nat}
    {fd : Fd} (hi : files.get i = some fd) (h1 : i ≠ 1) :
    ∃ b, held.get i = some (fd.count, b) := by
  have h2 := T.table i h1
  rw [hi] at h2
  cases hh : held.get i with
  | none => rw [hh] at h2; cases h2
  | some x =>
    rw [hh] at h2; injection h2 with h2
    have h2 : fd.count = x.1 := h2
    exact ⟨x.2, by rw [h2]⟩

theorem Tab.no_file {files : OMap Fd} {held : OMap (Nat × Bool)} (T : Tab files held) {i : Nat}
    (hi : files.get i = none) : held.get i = none := by
  cases hh : held.get i with
  | none => rfl
  | some x =>
    obtain ⟨_, _, fd, h1, _⟩ := T.of_held (c := x.1) (b := x.2) hh
    rw [hi] at h1; cases h1

theorem Tab.count {files : OMap Fd} {held : OMap (Nat × Bool)} (T : Tab files held) {i : Nat}
    {fd : Fd} (hi : files.get i = some fd) : fd.count ≠ 0 := by
  by_cases h1 : i = 1
  · subst h1; rw [T.root] at hi; injection hi with hi; subst hi; decide
  · obtain ⟨b, h2⟩ := T.of_file hi h1
    have := T.pos _ _ _ h2; omega

theorem Tab.has {d : Daemon} {k : Kernel} (T : Tab d.files k.held) {i : Nat} {b : Bool}
    (hi : k.Has i b) : ∃ fd, d.files.get i = some fd ∧ d.handle i = some fd := by
  have : ∃ fd, d.files.get i = some fd := by
    rcases hi with ⟨rfl, _⟩ | ⟨c, hc⟩
    · exact ⟨_, T.root⟩
    · obtain ⟨_, _, fd, h1, _⟩ := T.of_held hc; exact ⟨fd, h1⟩
  obtain ⟨fd, h1⟩ := this
  refine ⟨fd, h1, ?_⟩
  simp only [Daemon.handle, h1, Fd.handle, if_neg (T.count h1)]

theorem Tab.add {files : OMap Fd} {held : OMap (Nat × Bool)} (T : Tab files held) {i : Nat}
    {fd : Fd} (hi : i ≠ 1) (hc : fd.count = 1) (b : Bool) :
    Tab (addFd files i fd) (held.insert i (((held.get i).map (·.1)).getD 0 + 1, b)) := by
  constructor
  · rw [get_addFd, if_neg (Ne.symm hi)]; exact T.root
  · rw [OMap.get_insert, if_neg (Ne.symm hi)]; exact T.hroot
  · intro j hj
    rw [get_addFd, OMap.get_insert]
    by_cases hji : j = i
    · rw [if_pos hji, if_pos hji]
      have := T.table i hi
      cases hf : files.get i with
      | none =>
        rw [hf] at this
        simp only [Option.map_none] at this
        simp [← this, hc]
      | some o =>
        rw [hf] at this
        simp only [Option.map_some] at this
        simp [← this, hc]
    · rw [if_neg hji, if_neg hji]; exact T.table j hj
  · intro j c b' hj
    rw [OMap.get_insert] at hj
    by_cases hji : j = i
    · rw [if_pos hji] at hj; injection hj with hj; injection hj with hj _; omega
    · rw [if_neg hji] at hj; exact T.pos j c b' hj
  · unfold addFd; cases files.get i <;> exact T.fsorted.insert _ _
  · exact T.hsorted.insert _ _

theorem Tab.forget {files : OMap Fd} {held : OMap (Nat × Bool)} (T : Tab files held) {i : Nat}
    (hi : i ≠ 1) : Tab (files.remove i) (held.remove i) := by
  constructor
  · rw [OMap.get_remove, if_neg (Ne.symm hi)]; exact T.root
  · rw [OMap.get_remove, if_neg (Ne.symm hi)]; exact T.hroot
  · intro j hj
    rw [OMap.get_remove, OMap.get_remove]
    by_cases hji : j = i
    · rw [if_pos hji, if_pos hji]; rfl
    · rw [if_neg hji, if_neg hji]; exact T.table j hj
  · intro j c b hj
    rw [OMap.get_remove] at hj
    by_cases hji : j = i
    · rw [if_pos hji] at hj; cases hj
    · rw [if_neg hji] at hj; exact T.pos j c b hj
  · exact T.fsorted.remove _
  · exact T.hsorted.remove _

theorem Tab.reparent {files : OMap Fd} {held : OMap (Nat × Bool)} (T : Tab files held) {i np : Nat}
    {fd : Fd} (hi : i ≠ 1) (hf : files.get i = some fd) :
    Tab (files.insert i (fd.reparent np)) held := by
  refine ⟨?_, T.hroot, ?_, T.pos, T.fsorted.insert _ _, T.hsorted⟩
  · rw [OMap.get_insert, if_neg (Ne.symm hi)]; exact T.root
  · intro j hj
    rw [OMap.get_insert]
    by_cases hji : j = i
    · rw [if_pos hji, hji, ← T.table i hi, hf]
      unfold Fd.reparent; split <;> rfl
    · rw [if_neg hji]; exact T.table j hj

/-! ## Kinds and parents -/

/-- Every name of the new file system is a name of the old one, or another name of a file. -/
theorem Typ.step {files : OMap Fd} {held : OMap (Nat × Bool)} (T : Typ files held s)
    (hn : s.next ≤ t.next)
    (hk : ∀ p n i b x, Proper n → t.Named p n i b → held.get i = some x → s.Named p n i b ∨
      (b = false ∧ ∃ p' n', Proper n' ∧ s.Named p' n' i false)) : Typ files held t := by
  constructor
  · intro i x hi; exact Nat.lt_of_lt_of_le (T.below i x hi) hn
  · intro p n i b c b' h1 h2 h3
    rcases hk p n i b _ h1 h2 h3 with h4 | ⟨h4, p', n', h5, h6⟩
    · exact T.kinds p n i b c b' h1 h4 h3
    · rw [h4]; exact T.kinds p' n' i false c b' h5 h6 h3
  · intro i fd c h1 h2
    obtain ⟨q, h3, h4⟩ := T.dirs i fd c h1 h2
    refine ⟨q, h3, fun p n h5 h6 => ?_⟩
    rcases hk p n i true _ h5 h6 h2 with h7 | ⟨h7, _⟩
    · exact h4 p n h5 h7
    · cases h7
  · exact T.files

theorem named_inode (I : Inv h s) {p i : Nat} {n : Name} {b : Bool} (hn : s.Named p n i b) :
    ∃ k, s.inodes.get i = some ⟨b, k⟩ := I.entIno _ hn

theorem named_kind (I : Inv h s) {p i p' : Nat} {n n' : Name} {b b' : Bool} (hn : s.Named p n i b)
    (hn' : s.Named p' n' i b') : b = b' := by
  obtain ⟨k, h1⟩ := named_inode I hn
  obtain ⟨k', h2⟩ := named_inode I hn'
  rw [h1] at h2; injection h2 with h2; injection h2

theorem named_eq (I : Inv h s) {p i i' : Nat} {n : Name} {b b' : Bool} (hn : s.Named p n i b)
    (hn' : s.Named p n i' b') : i = i' ∧ b = b' := by
  have := I.mem_key (a := ⟨p, n, i, b⟩) (b := ⟨p, n, i', b'⟩) hn hn' rfl rfl
  injection this with _ _ h1 h2
  exact ⟨h1, h2⟩

theorem named_ne_one (I : Inv h s) {p i : Nat} {n : Name} {b : Bool} (hp : Proper n)
    (hn : s.Named p n i b) : i ≠ 1 := by
  cases b with
  | true => exact (I.dir_entry hp hn).1
  | false =>
    rintro rfl
    obtain ⟨k, h1⟩ := named_inode I hn
    obtain ⟨k', h2⟩ := I.root
    rw [h1] at h2; injection h2 with h2; injection h2 with h2; cases h2

theorem Typ.add {files : OMap Fd} {held : OMap (Nat × Bool)} (T : Typ files held s)
    (TT : Tab files held) (I : Inv h s) {p i c : Nat} {n : Name} {b : Bool} {fd : Fd} (hp : Proper n)
    (hn : s.Named p n i b)
    (hf : files.get i = none → fd.parent = if b then some p else none) :
    Typ (addFd files i fd) (held.insert i (c, b)) s := by
  obtain ⟨k, hi⟩ := named_inode I hn
  have hi1 := named_ne_one I hp hn
  constructor
  · intro j x hj
    rw [OMap.get_insert] at hj
    by_cases hji : j = i
    · rw [hji]; exact I.next _ _ hi
    · rw [if_neg hji] at hj; exact T.below j x hj
  · intro p' n' j b1 c' b2 h1 h2 h3
    rw [OMap.get_insert] at h3
    by_cases hji : j = i
    · rw [if_pos hji] at h3; injection h3 with h3; injection h3 with _ h3
      rw [hji] at h2; rw [← h3]; exact named_kind I hn h2
    · rw [if_neg hji] at h3; exact T.kinds p' n' j b1 c' b2 h1 h2 h3
  · intro j fd' c' h1 h2
    rw [get_addFd] at h1
    rw [OMap.get_insert] at h2
    by_cases hji : j = i
    · rw [if_pos hji] at h1 h2
      injection h2 with h2; injection h2 with _ h2
      injection h1 with h1
      rw [hji]
      cases ho : files.get i with
      | none =>
        rw [ho] at h1
        have h1 : fd = fd' := h1
        refine ⟨p, ?_, ?_⟩
        · rw [← h1, hf ho, h2, if_pos rfl]
        · intro p' n' h3 h4
          rw [h2] at hn
          exact ((I.dir_unique h3 hp h4 hn).1)
      | some o =>
        rw [ho] at h1
        obtain ⟨b0, h3⟩ := TT.of_file ho hi1
        have h4 := T.kinds p n i b _ b0 hp hn h3
        rw [h4, h2] at h3
        obtain ⟨q, h5, h6⟩ := T.dirs i o _ ho h3
        exact ⟨q, by rw [← h1]; exact h5, h6⟩
    · rw [if_neg hji] at h1 h2; exact T.dirs j fd' c' h1 h2
  · intro j fd' c' h1 h2
    rw [get_addFd] at h1
    rw [OMap.get_insert] at h2
    by_cases hji : j = i
    · rw [if_pos hji] at h1 h2
      injection h2 with h2; injection h2 with _ h2
      injection h1 with h1
      cases ho : files.get i with
      | none =>
        rw [ho] at h1
        have h1 : fd = fd' := h1
        rw [← h1, hf ho, h2]; rfl
      | some o =>
        rw [ho] at h1
        obtain ⟨b0, h3⟩ := TT.of_file ho hi1
        have h4 := T.kinds p n i b _ b0 hp hn h3
        rw [h4, h2] at h3
        rw [← h1]; exact T.files i o _ ho h3
    · rw [if_neg hji] at h1 h2; exact T.files j fd' c' h1 h2

theorem Typ.forget {files : OMap Fd} {held : OMap (Nat × Bool)} (T : Typ files held s) (i : Nat) :
    Typ (files.remove i) (held.remove i) s := by
  have hg : ∀ j x, (held.remove i).get j = some x → held.get j = some x := by
    intro j x hj
    rw [OMap.get_remove] at hj
    split at hj
    · cases hj
    · exact hj
  have hg' : ∀ j x, (files.remove i).get j = some x → files.get j = some x := by
    intro j x hj
    rw [OMap.get_remove] at hj
    split at hj
    · cases hj
    · exact hj
  exact ⟨fun j x h1 => T.below j x (hg j x h1), fun p n j b c b' h1 h2 h3 =>
    T.kinds p n j b c b' h1 h2 (hg _ _ h3), fun j fd c h1 h2 => T.dirs j fd c (hg' _ _ h1) (hg _ _ h2),
    fun j fd c h1 h2 => T.files j fd c (hg' _ _ h1) (hg _ _ h2)⟩

/-! ## Names -/

theorem Nm.same {names : NameMap Nat} {dcache : NameMap (Option Nat)} (N : Nm names dcache s)
    (hs : Same s t) : Nm names dcache t := by
  refine ⟨N.names, ?_, ?_⟩
  · intro p n i h1
    obtain ⟨h2, b, h3⟩ := N.known p n i h1
    exact ⟨h2, b, (hs _ _ _ _ h2).2 h3⟩
  · intro p n h1
    obtain ⟨h2, h3⟩ := N.free p n h1
    refine ⟨h2, ?_⟩
    rintro ⟨i, b, h4⟩
    exact h3 ⟨i, b, (hs _ _ _ _ h2).1 h4⟩

theorem Nm.add {names names' : NameMap Nat} {dcache : NameMap (Option Nat)} (N : Nm names dcache s)
    {p i : Nat} {n : Name} {b : Bool} (hp : Proper n)
    (hn : ∀ d m j c, Proper m → (t.Named d m j c ↔ (d = p ∧ m = n ∧ j = i ∧ c = b) ∨ s.Named d m j c))
    (he : ∀ p' n', names'.get p' n' = if p' = p ∧ n' = n then some i else names.get p' n') :
    Nm names' (dcache.set p n (some i)) t := by
  constructor
  · intro p' n' i'
    rw [he, NameMap.get_set]
    split
    · simp
    · exact N.names p' n' i'
  · intro p' n' i' h1
    rw [NameMap.get_set] at h1
    split at h1
    · rename_i h2
      injection h1 with h1; injection h1 with h1
      rw [h2.1, h2.2, ← h1]
      exact ⟨hp, b, (hn _ _ _ _ hp).2 (Or.inl ⟨rfl, rfl, rfl, rfl⟩)⟩
    · obtain ⟨h2, b', h3⟩ := N.known p' n' i' h1
      exact ⟨h2, b', (hn _ _ _ _ h2).2 (Or.inr h3)⟩
  · intro p' n' h1
    rw [NameMap.get_set] at h1
    split at h1
    · injection h1 with h1; cases h1
    · rename_i h0
      obtain ⟨h2, h3⟩ := N.free p' n' h1
      refine ⟨h2, ?_⟩
      rintro ⟨j, c, h4⟩
      rcases (hn _ _ _ _ h2).1 h4 with ⟨h5, h6, _⟩ | h5
      · exact h0 ⟨h5, h6⟩
      · exact h3 ⟨j, c, h5⟩

theorem Nm.drop {names names' : NameMap Nat} {dcache : NameMap (Option Nat)} (N : Nm names dcache s)
    {p : Nat} {n : Name} (hp : Proper n)
    (hn : ∀ d m j c, Proper m → (t.Named d m j c ↔ s.Named d m j c ∧ ¬ (d = p ∧ m = n)))
    (he : ∀ p' n', names'.get p' n' = if p' = p ∧ n' = n then none else names.get p' n') :
    Nm names' (dcache.set p n none) t := by
  constructor
  · intro p' n' i'
    rw [he, NameMap.get_set]
    split
    · simp
    · exact N.names p' n' i'
  · intro p' n' i' h1
    rw [NameMap.get_set] at h1
    split at h1
    · injection h1 with h1; cases h1
    · rename_i h0
      obtain ⟨h2, b', h3⟩ := N.known p' n' i' h1
      exact ⟨h2, b', (hn _ _ _ _ h2).2 ⟨h3, h0⟩⟩
  · intro p' n' h1
    rw [NameMap.get_set] at h1
    split at h1
    · rename_i h2
      rw [h2.1, h2.2]
      refine ⟨hp, ?_⟩
      rintro ⟨j, c, h4⟩
      exact ((hn _ _ _ _ hp).1 h4).2 ⟨rfl, rfl⟩
    · obtain ⟨h2, h3⟩ := N.free p' n' h1
      refine ⟨h2, ?_⟩
      rintro ⟨j, c, h4⟩
      exact h3 ⟨j, c, ((hn _ _ _ _ h2).1 h4).1⟩

/-- The kernel stops knowing about a name that was free and may have been taken. -/
theorem Nm.doubt {names : NameMap Nat} {dcache : NameMap (Option Nat)} (N : Nm names dcache s)
    {p : Nat} {n : Name} (hf : dcache.get p n = some none)
    (hn : ∀ d m j c, Proper m → ¬ (d = p ∧ m = n) → (t.Named d m j c ↔ s.Named d m j c)) :
    Nm names (dcache.erase p n) t := by
  constructor
  · intro p' n' i'
    rw [NameMap.get_erase]
    split
    · rename_i h1
      rw [N.names, h1.1, h1.2, hf]; simp
    · exact N.names p' n' i'
  · intro p' n' i' h1
    rw [NameMap.get_erase] at h1
    split at h1
    · cases h1
    · rename_i h0
      obtain ⟨h2, b', h3⟩ := N.known p' n' i' h1
      exact ⟨h2, b', (hn _ _ _ _ h2 h0).2 h3⟩
  · intro p' n' h1
    rw [NameMap.get_erase] at h1
    split at h1
    · cases h1
    · rename_i h0
      obtain ⟨h2, h3⟩ := N.free p' n' h1
      refine ⟨h2, ?_⟩
      rintro ⟨j, c, h4⟩
      exact h3 ⟨j, c, (hn _ _ _ _ h2 h0).1 h4⟩

/-! ## Files in use -/

theorem Use.step {held : OMap (Nat × Bool)} {replaced replaced' : List Nat}
    {exc dead : Nat → Prop} (U : Use held replaced s) (F : Frame s t exc dead)
    (hr : ∀ i, i ∈ replaced → i ∈ replaced')
    (he : ∀ i c, held.get i = some (c, false) → exc i → i ∈ replaced')
    (hd : ∀ i, dead i → ∃ c, held.get i = some (c, false)) : Use held replaced' t := by
  constructor
  · intro i hi
    rcases F.dead i hi with h1 | h1
    · exact U.dead i h1
    · exact hd i h1
  · intro i c hi hni
    obtain ⟨n, h1⟩ := U.live i c hi fun h2 => hni (hr i h2)
    exact F.keep i n h1 fun h2 => hni (he i c hi h2)

theorem Use.add {held : OMap (Nat × Bool)} {replaced : List Nat} (U : Use held replaced s)
    (I : Inv h s) {p i c : Nat} {n : Name} {b : Bool} (hn : s.Named p n i b) :
    Use (held.insert i (c, b)) replaced s := by
  obtain ⟨k, hi⟩ := named_inode I hn
  constructor
  · intro j hj
    obtain ⟨c', h1⟩ := U.dead j hj
    rw [OMap.get_insert]
    by_cases hji : j = i
    · rw [hji, hi] at hj
      injection hj with hj; injection hj with hj _
      rw [if_pos hji, hj]; exact ⟨c, rfl⟩
    · rw [if_neg hji]; exact ⟨c', h1⟩
  · intro j c' hj hnr
    rw [OMap.get_insert] at hj
    by_cases hji : j = i
    · rw [if_pos hji] at hj; injection hj with hj; injection hj with _ hj
      rw [hj] at hi; rw [hji]; exact ⟨k, hi⟩
    · rw [if_neg hji] at hj; exact U.live j c' hj hnr

/-! ## Directories -/

theorem rooted_step
    (h0 : ∀ d n j, Proper n → s.Named d n j true → t.Dir j → t.Named d n j true ∨ FS.Rooted t j)
    (I : Inv h t) {j : Nat} (hj : FS.Rooted s j) : t.Dir j → FS.Rooted t j := by
  induction hj with
  | root => intro _; exact .root
  | child h1 h2 h3 ih =>
    intro h4
    rcases h0 _ _ _ h2 h3 h4 with h5 | h5
    · exact .child (ih (I.entDir _ h5)) h2 h5
    · exact h5

/-- A directory of a consistent file system is the root or has a name. -/
theorem dir_named (I : Inv h s) {i : Nat} (hi : s.Dir i) :
    i = 1 ∨ ∃ p n, Proper n ∧ s.Named p n i true := by
  by_cases h1 : i = 1
  · exact Or.inl h1
  · obtain ⟨k, hi⟩ := hi
    obtain ⟨p, n, h2, h3, _⟩ := I.dotdots i k hi h1
    exact Or.inr ⟨p, n, h2, h3⟩

theorem Tree.step (T : Tree s) (I : Inv h s) (J : Inv h t)
    (h0 : ∀ d n j, Proper n → s.Named d n j true → t.Dir j → t.Named d n j true ∨ FS.Rooted t j)
    (h1 : ∀ d n j, Proper n → t.Named d n j true → (∃ d' n', s.Named d' n' j true) ∨ FS.Rooted t j) :
    Tree t := by
  intro i hi
  rcases dir_named J hi with rfl | ⟨p, n, h2, h3⟩
  · exact .root
  · rcases h1 p n i h2 h3 with ⟨d', n', h4⟩ | h4
    · exact rooted_step h0 J (T i (named_inode I h4)) hi
    · exact h4

end Verif.Fuse
