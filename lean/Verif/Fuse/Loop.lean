import Verif.Fuse.Lemmas

/-!
# The directory loop check
-/

namespace Verif.Fuse

open Verif Verif.Namespace

variable {h : Nat → Nat} {s t : FS}

/-- `i` is that many levels below the root, and all directories on the way are in the table. -/
inductive Deep (s : FS) (files : OMap Fd) : Nat → Nat → Prop where
  | root : Deep s files 0 1
  | child {m p i : Nat} {n : Name} {fd : Fd} : Deep s files m p → files.get p = some fd → Proper n →
      s.Named p n i true → Deep s files (m + 1) i

theorem Deep.unique {files : OMap Fd} (I : Inv h s) {a b i : Nat} (ha : Deep s files a i)
    (hb : Deep s files b i) : a = b := by
  induction ha generalizing b with
  | root =>
    cases hb with
    | root => rfl
    | child _ _ h1 h2 => exact absurd rfl (named_ne_one I h1 h2)
  | child h1 h2 h3 h4 ih =>
    cases hb with
    | root => exact absurd rfl (named_ne_one I h3 h4)
    | child g1 g2 g3 g4 =>
      obtain ⟨e, _⟩ := I.dir_unique h3 g3 h4 g4
      subst e
      rw [ih g1]

theorem nodup_length {l m : List Nat} (hl : l.Nodup) (hs : ∀ x ∈ l, x ∈ m) :
    l.length ≤ m.length := by
  induction l generalizing m with
  | nil => simp
  | cons a l ih =>
    obtain ⟨h1, h2⟩ := List.nodup_cons.1 hl
    have ha := hs a (List.mem_cons_self ..)
    have := ih (m := m.erase a) h2 fun x hx => by
      refine (List.mem_erase_of_ne ?_).2 (hs x (List.mem_cons_of_mem _ hx))
      rintro rfl; exact h1 hx
    rw [List.length_erase_of_mem ha] at this
    have hpos := List.length_pos_of_mem ha
    simp only [List.length_cons]; omega

theorem Deep.bound {files : OMap Fd} (I : Inv h s) {m i : Nat} {fd : Fd} (hd : Deep s files m i)
    (hi : files.get i = some fd) : m + 1 ≤ files.length := by
  have key : ∀ m i fd, Deep s files m i → files.get i = some fd →
      ∃ l : List Nat, l.length = m + 1 ∧ l.Nodup ∧
        ∀ x ∈ l, x ∈ files.map (·.1) ∧ ∃ d, d ≤ m ∧ Deep s files d x := by
    intro m i fd hd
    induction hd generalizing fd with
    | root =>
      intro hi
      refine ⟨[1], rfl, by simp, ?_⟩
      intro x hx
      rw [List.mem_singleton] at hx
      subst hx
      exact ⟨List.mem_map.2 ⟨_, OMap.mem_of_get hi, rfl⟩, 0, Nat.le_refl _, .root⟩
    | @child m p j n pfd h1 h2 h3 h4 ih =>
      intro hi
      obtain ⟨l, g1, g2, g3⟩ := ih _ h2
      have hd := Deep.child h1 h2 h3 h4
      refine ⟨j :: l, by rw [List.length_cons, g1], List.nodup_cons.2 ⟨?_, g2⟩, ?_⟩
      rotate_left 1
      · intro x hx
        rcases List.mem_cons.1 hx with rfl | hx
        · exact ⟨List.mem_map.2 ⟨_, OMap.mem_of_get hi, rfl⟩, _, Nat.le_refl _, hd⟩
        · obtain ⟨a1, d, a2, a3⟩ := g3 x hx
          exact ⟨a1, d, by omega, a3⟩
      · intro hx
        obtain ⟨_, d, a2, a3⟩ := g3 _ hx
        have := Deep.unique I hd a3
        omega
  obtain ⟨l, g1, g2, g3⟩ := key m i fd hd hi
  have := nodup_length g2 fun x hx => (g3 x hx).1
  rw [List.length_map] at this
  omega

/-- A directory the kernel holds, with all those above it. -/
theorem Good.deep {x : Sys} (G : Good h x) {i : Nat} (hr : x.k.Rooted i) (hi : x.k.Has i true) :
    ∃ m, Deep x.d.fs x.d.files m i := by
  induction hr with
  | root => exact ⟨0, .root⟩
  | child h1 h2 h3 ih =>
    obtain ⟨m, h4⟩ := ih h2
    obtain ⟨h5, b, h6⟩ := G.nm.known _ _ _ h3
    have h7 := named_ne_one G.fs h5 h6
    have : b = true := by
      rcases hi with ⟨h8, _⟩ | ⟨c, h8⟩
      · exact absurd h8 h7
      · exact (G.typ.kinds _ _ _ _ _ _ h5 h6 h8).symm
    subst this
    obtain ⟨fd, h8, _⟩ := G.tab.has h2
    exact ⟨m + 1, .child h4 h8 h5 h6⟩

theorem below_child (I : Inv h s) {a p i : Nat} {n : Name} (hn : Proper n)
    (hi : s.Named p n i true) (hne : a ≠ i) : FS.Below s a i ↔ FS.Below s a p := by
  constructor
  · intro h1
    cases h1 with
    | here => exact absurd rfl hne
    | child h2 h3 h4 =>
      obtain ⟨e, _⟩ := I.dir_unique hn h3 hi h4
      rw [e]; exact h2
  · intro h1; exact .child h1 hn hi

/-- The walk ends, and finds out if the directory is inside `src`. -/
theorem dirloop_ok {files : OMap Fd} {held : OMap (Nat × Bool)} (I : Inv h s) (T : Tab files held)
    (Y : Typ files held s) {src m i fuel : Nat} {fd : Fd} (hd : Deep s files m i)
    (hi : files.get i = some fd) (hf : m < fuel) (hne : src ≠ i) :
    ∃ r, dirloop files src fuel fd = some r ∧ (r = true ↔ FS.Below s src i) := by
  induction hd generalizing fuel fd with
  | root =>
    rw [T.root] at hi; injection hi with hi; subst hi
    obtain ⟨f, rfl⟩ : ∃ f, fuel = f + 1 := ⟨fuel - 1, by omega⟩
    refine ⟨false, rfl, by simp, ?_⟩
    intro h1
    cases h1 with
    | here => exact absurd rfl hne
    | child _ h3 h4 => exact absurd rfl (named_ne_one I h3 h4)
  | @child m p j n pfd h1 h2 h3 h4 ih =>
    obtain ⟨f, rfl⟩ : ∃ f, fuel = f + 1 := ⟨fuel - 1, by omega⟩
    have h5 := named_ne_one I h3 h4
    obtain ⟨b, h6⟩ := T.of_file hi h5
    have h7 := Y.kinds _ _ _ _ _ _ h3 h4 h6
    subst h7
    obtain ⟨q, h8, h9⟩ := Y.dirs _ _ _ hi h6
    rw [← h9 _ _ h3 h4] at h8
    rw [below_child I h3 h4 hne]
    unfold dirloop
    rw [h8]
    dsimp only
    by_cases h11 : src = p
    · refine ⟨true, if_pos h11, ?_⟩
      rw [h11]
      exact ⟨fun _ => .here, fun _ => rfl⟩
    · rw [if_neg h11, h2]
      exact ih h2 (by omega) h11

/-- A rename that succeeds replaced no directory with something in it. -/
theorem rename_target_empty (I : Inv h s) {p i np j : Nat} {n nn : Name} {ni : Option Nat} {r : Nat}
    (hnn : Proper nn) (hj : s.Named np nn j true)
    (hr : Namespace.rename h s p i n np ni nn = some (.ok r, t)) :
    ∀ d m k b, s.Named d m k b → Proper m → d ≠ j := by
  rintro d m k b h1 h2 rfl
  have hl := lookup_of_mem I.keys (e := ⟨np, nn, d, true⟩) hj
  obtain ⟨h3, h4, _⟩ := I.dir_entry hnn hj
  have hok := okToRmdir_eq I h4 h3
  rw [if_pos ⟨_, h1, rfl, h2⟩] at hok
  simp only [Namespace.rename, renameCheck, hl] at hr
  split at hr
  · simp at hr
  · split at hr
    · cases hr
    · simp at hr
    · rename_i h5
      split at h5
      · cases h5
      · simp [hok] at h5

/-- After a rename of something that is not above the destination, all directories are below the
root still. -/
theorem rename_tree (T : Tree s) (I : Inv h s) (J : Inv h t) {p i np : Nat} {n nn : Name} {b : Bool}
    (hn : Proper n) (hnn : Proper nn) (hi : s.Named p n i b)
    (hty : ∀ j b', s.Named np nn j b' → b' = b ∧ j ≠ i)
    (hnp : s.Dir np) (hb : ¬ FS.Below s i np)
    (hemp : ∀ j, s.Named np nn j true → ∀ d m k b, s.Named d m k b → Proper m → d ≠ j)
    (hch : ∀ d m j b', Proper m → (t.Named d m j b' ↔ (d = np ∧ m = nn ∧ j = i ∧ b' = b) ∨
      (s.Named d m j b' ∧ ¬ ((d = p ∧ m = n) ∨ (d = np ∧ m = nn))))) : Tree t := by
  have hnew : t.Named np nn i b := (hch _ _ _ _ hnn).2 (Or.inl ⟨rfl, rfl, rfl, rfl⟩)
  -- a path that avoids the renamed directory and the replaced one
  have key : ∀ j, FS.Rooted s j → ¬ FS.Below s i j → ¬ s.Named np nn j true → FS.Rooted t j := by
    intro j hj
    induction hj with
    | root => intro _ _; exact .root
    | @child q j m h1 h2 h3 ih =>
      intro h4 h5
      have h6 : i ≠ j := by rintro rfl; exact h4 .here
      refine .child (ih (fun h7 => h4 (.child h7 h2 h3)) ?_) h2 ((hch _ _ _ _ h2).2 (Or.inr ⟨h3, ?_⟩))
      · intro h7
        exact hemp _ h7 _ _ _ _ h3 h2 rfl
      · rintro (⟨rfl, rfl⟩ | ⟨rfl, rfl⟩)
        · exact h6 (named_eq I hi h3).1
        · exact h5 h3
  have hnpt : FS.Rooted t np := by
    refine key np (T np hnp) hb ?_
    intro h1
    exact hemp _ h1 _ _ _ _ h1 hnn rfl
  refine T.step I J ?_ ?_
  · intro d m j h1 h2 h3
    by_cases h4 : d = p ∧ m = n
    · obtain ⟨rfl, rfl⟩ := h4
      obtain ⟨rfl, rfl⟩ := named_eq I hi h2
      exact Or.inr (.child hnpt hnn hnew)
    · by_cases h5 : d = np ∧ m = nn
      · exfalso
        obtain ⟨rfl, rfl⟩ := h5
        obtain ⟨h6, h7⟩ := hty j true h2
        rcases dir_named J h3 with rfl | ⟨q, m', h8, h9⟩
        · exact named_ne_one I h1 h2 rfl
        · rcases (hch _ _ _ _ h8).1 h9 with ⟨_, _, h10, _⟩ | ⟨h10, h11⟩
          · exact h7 h10
          · obtain ⟨rfl, rfl⟩ := I.dir_unique h8 h1 h10 h2
            exact h11 (Or.inr ⟨rfl, rfl⟩)
      · exact Or.inl ((hch _ _ _ _ h1).2 (Or.inr ⟨h2, fun h6 => h6.elim h4 h5⟩))
  · intro d m j h1 h2
    rcases (hch _ _ _ _ h1).1 h2 with ⟨_, _, h3, h4⟩ | ⟨h3, _⟩
    · subst h3; subst h4
      exact Or.inl ⟨p, n, hi⟩
    · exact Or.inl ⟨d, m, h3⟩

end Verif.Fuse
