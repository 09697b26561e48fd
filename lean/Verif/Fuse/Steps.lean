import Verif.Fuse.Loop

/-!
# Every request keeps the invariant
-/

namespace Verif.Fuse

open Verif Verif.Namespace

variable {h : Nat → Nat} {N : Nat} {s t : FS}

/-- The request writes to the file or forgets it. -/
def Touches (i : Nat) : Req → Prop
  | .write j _ _ => j = i
  | .forget j _ => j = i
  | _ => False

/-- What holds after a request. -/
structure StepOk (h : Nat → Nat) (x : Sys) (r : Req) (a : Reply) (x' : Sys) : Prop where
  good : Good h x'
  answers : Answers x.d.fs x'.d.fs r a
  items : ∀ i c, x.k.held.get i = some (c, false) → i ∉ x'.k.replaced → ¬ Touches i r →
    x'.d.fs.itemsOf i = x.d.fs.itemsOf i
  next : x'.d.fs.next ≤ x.d.fs.next + 1

theorem same_refl (s : FS) : Same s s := fun _ _ _ _ _ => Iff.rfl

theorem dying_inj (I : Inv h s) (hinj : Distinct h N) (hN : s.next ≤ N) {i : Nat} (hi : i < s.next) :
    ∀ j, s.dying.get (h i) = some j → j = i := by
  intro j hj
  obtain ⟨h1, h2⟩ := I.dyout _ _ hj
  have := I.next _ _ h2
  exact hinj _ _ (by omega) (by omega) h1.symm

theorem Good.taken {x : Sys} (G : Good h x) {p i : Nat} {n : Name} (hk : x.k.Knows p n i) :
    x.d.names.get p n = some i := (G.nm.names p n i).2 hk

theorem Good.no_name {x : Sys} (G : Good h x) {p : Nat} {n : Name} (hk : x.k.Free p n) :
    x.d.names.get p n = none := by
  cases hg : x.d.names.get p n with
  | none => rfl
  | some i =>
    have := (G.nm.names p n i).1 hg
    rw [hk] at this; injection this with this; cases this

theorem Good.has_named {x : Sys} (G : Good h x) {p i : Nat} {n : Name} {b : Bool}
    (hk : x.k.Knows p n i) (hh : x.k.Has i b) : Proper n ∧ x.d.fs.Named p n i b := by
  obtain ⟨h1, b', h2⟩ := G.nm.known _ _ _ hk
  refine ⟨h1, ?_⟩
  rcases hh with ⟨h3, _⟩ | ⟨c, h3⟩
  · exact absurd h3 (named_ne_one G.fs h1 h2)
  · rw [G.typ.kinds _ _ _ _ _ _ h1 h2 h3]; exact h2

theorem Good.linked_dir {x : Sys} (G : Good h x) {p : Nat} (hl : x.k.Linked p)
    (hh : x.k.Has p true) : x.d.fs.Dir p := by
  rcases hl with rfl | ⟨q, m, h1⟩
  · exact G.fs.root
  · exact named_inode G.fs (G.has_named h1 hh).2

/-- Letting go of a file that has a name changes nothing. -/
theorem dropFd_named {d : Daemon} (I : Inv h d.fs) (hinj : Distinct h N) (hN : d.fs.next ≤ N) {p i : Nat}
    {n : Name} {b : Bool}
    (hn : Proper n) (hi : d.fs.Named p n i b) (e : Err) : dropFd h d i e = some (.err e, d) := by
  obtain ⟨t, h1, _, _, _, _, h2, _⟩ := inactive_ok I (dying_inj I hinj hN (by
    obtain ⟨k, hk⟩ := named_inode I hi; exact I.next _ _ hk))
  have h3 : d.fs.inodes.get i ≠ some ⟨false, 0⟩ := by
    intro h4
    exact ((nameless_iff I).1 h4).2 _ _ _ hi
  rw [h2 h3] at h1
  simp only [dropFd, h1]

/-- A new entry is cached, or let go of if its attributes cannot be read. -/
theorem newEntry_ok {d : Daemon} (I : Inv h d.fs) (hinj : Distinct h N) (hN : d.fs.next ≤ N) {p i : Nat}
    {n : Name} {b : Bool}
    {fd : Fd} (hn : Proper n) (hi : d.fs.Named p n i b) (hc : fd.count = 1)
    (hnm : d.names.get p n = none) (fault : Fault) :
    newEntry h d fault p n i fd = if fault = .attr then some (.err .io, d) else
      some (.entry i b, { d with names := d.names.set p n i, files := addFd d.files i fd }) := by
  obtain ⟨k, hk⟩ := named_inode I hi
  have hh : fd.handle = some fd := by simp [Fd.handle, hc]
  unfold newEntry
  rw [hh]
  dsimp only
  unfold getattr
  by_cases hf : fault = .attr
  · rw [if_pos hf, if_pos hf]
    exact dropFd_named I hinj hN hn hi _
  · rw [if_neg hf, if_neg hf, hk]
    dsimp only
    simp only [cacheFile, hnm, Option.isSome_none, Bool.false_eq_true, if_false]
    rfl

/-- A lookup that succeeds. -/
theorem Good.hold {x : Sys} (G : Good h x) {p i : Nat} {n : Name} {b : Bool} {fd : Fd}
    (hn : Proper n) (hi : x.d.fs.Named p n i b) (hc : fd.count = 1)
    (hf : x.d.files.get i = none → fd.parent = if b then some p else none)
    {names : NameMap Nat}
    (hnames : ∀ p' n', names.get p' n' = if p' = p ∧ n' = n then some i else x.d.names.get p' n') :
    Good h ⟨{ x.d with names := names, files := addFd x.d.files i fd },
      (x.k.hold i b).know p n (some i)⟩ := by
  refine ⟨G.fs, G.tree, G.tab.add (named_ne_one G.fs hn hi) hc b, G.typ.add G.tab G.fs hn hi hf, ?_,
    G.use.add G.fs hi⟩
  refine G.nm.add (b := b) hn ?_ hnames
  intro d m j c _
  constructor
  · exact Or.inr
  · rintro (⟨rfl, rfl, rfl, rfl⟩ | h1)
    · exact hi
    · exact h1

theorem addFd_some {files : OMap Fd} {i : Nat} {fd fd' : Fd} (hf : files.get i = some fd)
    (hc : fd'.count = 1) :
    files.insert i { fd with count := fd.count + 1 } = addFd files i fd' := by
  simp only [addFd, hf, hc]

theorem addFd_none {files : OMap Fd} {i : Nat} {fd : Fd} (hf : files.get i = none) :
    files.insert i fd = addFd files i fd := by
  simp only [addFd, hf]

theorem fsLookup_proper {gp : Option Fd} {p : Nat} {pfd : Fd} {n : Name} (hn : Proper n) :
    fsLookup s gp p pfd n = match Namespace.lookup s.ents p n with
      | none => some (.error (.ofFs .ENOENT))
      | some e => some (.ok (e.ino, ⟨if e.isDir then some p else none, 1⟩)) := by
  simp only [fsLookup, if_neg hn.1, if_neg hn.2]
  rfl

theorem lookup_cases (I : Inv h s) (p : Nat) (n : Name) :
    (Namespace.lookup s.ents p n = none ∧ ¬ s.Taken p n) ∨
    ∃ i b, Namespace.lookup s.ents p n = some ⟨p, n, i, b⟩ ∧ s.Named p n i b := by
  cases hl : Namespace.lookup s.ents p n with
  | none =>
    refine Or.inl ⟨rfl, ?_⟩
    rintro ⟨i, b, h1⟩
    exact lookup_none hl _ h1 ⟨rfl, rfl⟩
  | some e =>
    obtain ⟨h1, h2, h3⟩ := lookup_some hl
    obtain ⟨d, m, i, b⟩ := e
    have h2 : d = p := h2
    have h3 : m = n := h3
    subst h2; subst h3
    exact Or.inr ⟨i, b, rfl, h1⟩

theorem Fd.ok_of {files : OMap Fd} {held : OMap (Nat × Bool)} (T : Tab files held)
    (o : Option Nat) : Fd.ok (o.bind files.get) = true := by
  cases o with
  | none => rfl
  | some g =>
    cases hg : files.get g with
    | none => simp [Fd.ok, hg]
    | some fd => simp [Fd.ok, hg, T.count hg]

theorem step_lookup {x : Sys} (G : Good h x) (hinj : Distinct h N) (hN : x.d.fs.next < N) {p : Nat} {n : Name} {f : Fault}
    (hf : x.k.Follows (.lookup p n f)) :
    ∃ a d, lookup h x.d p n f = some (a, d) ∧
      StepOk h x (.lookup p n f) a ⟨d, x.k.learn (.lookup p n f) a⟩ := by
  obtain ⟨hn, hp⟩ := hf
  obtain ⟨pfd, h1, _⟩ := G.tab.has hp
  have hc := G.tab.count h1
  have hgp := Fd.ok_of G.tab pfd.parent
  have hio : StepOk h x (.lookup p n f) (.err .io) ⟨x.d, x.k.learn (.lookup p n f) (.err .io)⟩ ∨
      f = .none := by
    by_cases h2 : f = .none
    · exact Or.inr h2
    · exact Or.inl ⟨G, ⟨same_refl _, Or.inr ⟨rfl, h2⟩⟩, fun _ _ _ _ _ => rfl, Nat.le_succ _⟩
  cases hnm : x.d.names.get p n with
  | some i =>
    have hk := (G.nm.names _ _ _).1 hnm
    obtain ⟨_, b, hi⟩ := G.nm.known _ _ _ hk
    obtain ⟨k, hin⟩ := named_inode G.fs hi
    have hsame : ∀ p' n', x.d.names.get p' n' =
        if p' = p ∧ n' = n then some i else x.d.names.get p' n' := by
      intro p' n'
      by_cases h2 : p' = p ∧ n' = n
      · rw [if_pos h2, h2.1, h2.2, hnm]
      · rw [if_neg h2]
    cases hfi : x.d.files.get i with
    | some fd =>
      have hs : lookupStart x.d p n = some (.cached i) := by
        simp only [lookupStart, h1, hgp, hnm, hfi, G.tab.count hfi]; simpa using hc
      simp only [lookup, hs, lookupEnd, getattr]
      by_cases h2 : f = .attr
      · rw [if_pos h2]
        rcases hio with h3 | h3
        · exact ⟨_, _, rfl, h3⟩
        · rw [h3] at h2; cases h2
      · rw [if_neg h2, hin]
        dsimp only
        rw [hfi]
        refine ⟨_, _, rfl, ?_, ⟨hi, same_refl _⟩, fun _ _ _ _ _ => rfl, Nat.le_succ _⟩
        rw [addFd_some (fd' := ⟨none, 1⟩) hfi rfl]
        exact G.hold hn hi rfl (fun h3 => by rw [hfi] at h3; cases h3) hsame
    | none =>
      have hs : lookupStart x.d p n = some (.known (pfd.parent.bind x.d.files.get) pfd) := by
        simp only [lookupStart, h1, hgp, hnm, hfi]; simpa using hc
      simp only [lookup, hs, lookupEnd]
      by_cases h2 : f = .op
      · rw [if_pos h2]
        rcases hio with h3 | h3
        · exact ⟨_, _, rfl, h3⟩
        · rw [h3] at h2; cases h2
      · rw [if_neg h2, fsLookup_proper hn, lookup_of_mem G.fs.keys hi]
        dsimp only
        unfold getattr
        by_cases h3 : f = .attr
        · rw [if_pos h3]
          dsimp only
          rw [dropFd_named G.fs hinj (Nat.le_of_lt hN) hn hi]
          rcases hio with h4 | h4
          · exact ⟨_, _, rfl, h4⟩
          · rw [h4] at h3; cases h3
        · rw [if_neg h3, hin]
          dsimp only
          simp only [hfi, Option.isSome_none, Bool.false_eq_true, if_false]
          refine ⟨_, _, rfl, ?_, ⟨hi, same_refl _⟩, fun _ _ _ _ _ => rfl, Nat.le_succ _⟩
          rw [addFd_none hfi]
          exact G.hold hn hi rfl (fun _ => rfl) hsame
  | none =>
    have hs : lookupStart x.d p n = some (.fresh (pfd.parent.bind x.d.files.get) pfd) := by
      simp only [lookupStart, h1, hgp, hnm]; simpa using hc
    simp only [lookup, hs, lookupEnd]
    by_cases h2 : f = .op
    · rw [if_pos h2]
      rcases hio with h3 | h3
      · exact ⟨_, _, rfl, h3⟩
      · rw [h3] at h2; cases h2
    · rw [if_neg h2, fsLookup_proper hn]
      rcases lookup_cases G.fs p n with ⟨h3, h4⟩ | ⟨i, b, h3, h4⟩
      · rw [h3]
        refine ⟨_, _, rfl, ?_, ⟨same_refl _, Or.inl ⟨rfl, h4⟩⟩, fun _ _ _ _ _ => rfl, Nat.le_succ _⟩
        refine ⟨G.fs, G.tree, G.tab, G.typ, ?_, G.use⟩
        refine G.nm.drop hn ?_ ?_
        · intro d m j c hm
          refine ⟨fun h5 => ⟨h5, ?_⟩, fun h5 => h5.1⟩
          rintro ⟨rfl, rfl⟩
          exact h4 ⟨j, c, h5⟩
        · intro p' n'
          by_cases h5 : p' = p ∧ n' = n
          · rw [if_pos h5, h5.1, h5.2, hnm]
          · rw [if_neg h5]
      · rw [h3]
        dsimp only
        rw [newEntry_ok G.fs hinj (Nat.le_of_lt hN) hn h4 rfl hnm]
        by_cases h5 : f = .attr
        · rw [if_pos h5]
          rcases hio with h6 | h6
          · exact ⟨_, _, rfl, h6⟩
          · rw [h6] at h5; cases h5
        · rw [if_neg h5]
          refine ⟨_, _, rfl, ?_, ⟨h4, same_refl _⟩, fun _ _ _ _ _ => rfl, Nat.le_succ _⟩
          exact G.hold hn h4 rfl (fun _ => rfl) (NameMap.get_set _ _ _ _)

theorem step_forget {x : Sys} (G : Good h x) (hinj : Distinct h N) (hN : x.d.fs.next < N) {i c : Nat}
    (hf : x.k.Follows (.forget i c)) :
    ∃ a d, forget h x.d i c = some (a, d) ∧
      StepOk h x (.forget i c) a ⟨d, x.k.learn (.forget i c) a⟩ := by
  by_cases hi : i = 1
  · subst hi
    refine ⟨.ok, x.d, rfl, ?_, ⟨rfl, same_refl _⟩, fun _ _ _ _ _ => rfl, Nat.le_succ _⟩
    have : x.k.learn (.forget 1 c) .ok = x.k := by
      simp only [Kernel.learn]
      rw [OMap.remove_of_none G.tab.hroot]
    rw [this]; exact G
  · rcases hf with hf | ⟨b, hf⟩
    · exact absurd hf hi
    obtain ⟨_, _, fd, h1, h2⟩ := G.tab.of_held hf
    obtain ⟨t, g1, g2, g3, g4, g5, g6, g7⟩ := inactive_ok G.fs
      (dying_inj G.fs hinj (Nat.le_of_lt hN) (G.typ.below _ _ hf))
    have hsame : Same x.d.fs t := by
      intro d m j b _
      simp only [FS.Named, g4]
    have hdir : ∀ j, t.Dir j → x.d.fs.Dir j := by
      rintro j ⟨k, h3⟩
      by_cases h4 : j = i
      · subst h4
        by_cases h5 : x.d.fs.inodes.get j = some ⟨false, 0⟩
        · rw [(g5 h5).1] at h3; cases h3
        · rw [g6 h5] at h3; exact ⟨k, h3⟩
      · rw [(g7 j h4).1] at h3; exact ⟨k, h3⟩
    refine ⟨.ok, { x.d with files := x.d.files.remove i, fs := t }, ?_, ?_, ⟨rfl, hsame⟩, ?_, ?_⟩
    · simp only [forget, if_neg hi, h1, h2, Nat.lt_irrefl, if_false, Nat.sub_self, g1, ne_eq,
        not_true_eq_false]
    · refine ⟨g2, ?_, G.tab.forget hi, ?_, G.nm.same hsame, ?_⟩
      · refine Tree.step G.tree G.fs g2 ?_ ?_
        · intro d n j h3 h4 _; exact Or.inl ((hsame _ _ _ _ h3).2 h4)
        · intro d n j h3 h4; exact Or.inl ⟨d, n, (hsame _ _ _ _ h3).1 h4⟩
      · refine (G.typ.forget i).step (Nat.le_of_eq g3.symm) ?_
        intro p n j b' _ h3 h4 _; exact Or.inl ((hsame _ _ _ _ h3).1 h4)
      · constructor
        · intro j hj
          have hj : t.inodes.get j = some ⟨false, 0⟩ := hj
          show ∃ c, (x.k.held.remove i).get j = some (c, false)
          by_cases h4 : j = i
          · subst h4
            by_cases h5 : x.d.fs.inodes.get j = some ⟨false, 0⟩
            · rw [(g5 h5).1] at hj; cases hj
            · rw [g6 h5] at hj; exact absurd hj h5
          · rw [(g7 j h4).1] at hj
            rw [OMap.get_remove, if_neg h4]
            exact G.use.dead j hj
        · intro j c' hj hnr
          have hj : (x.k.held.remove i).get j = some (c', false) := hj
          rw [OMap.get_remove] at hj
          by_cases h4 : j = i
          · rw [if_pos h4] at hj; cases hj
          · rw [if_neg h4] at hj
            obtain ⟨k, h5⟩ := G.use.live j c' hj hnr
            exact ⟨k, by show t.inodes.get j = _; rw [(g7 j h4).1]; exact h5⟩
    · intro j c' h3 h4 h5
      exact (g7 j fun h6 => h5 h6.symm).2
    · exact Nat.le_trans (Nat.le_of_eq g3) (Nat.le_succ _)

end Verif.Fuse
