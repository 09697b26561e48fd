import Verif.Fuse.Steps

/-!
# Requests that change names
-/

namespace Verif.Fuse

open Verif Verif.Namespace

variable {h : Nat → Nat} {N : Nat} {s t : FS}

theorem NameMap.erase_set {V : Type} (m : NameMap V) (p : Nat) (n : Name) (v : V) :
    (m.erase p n).set p n v = m.set p n v := by
  simp only [NameMap.set, NameMap.erase, List.filter_filter, Bool.and_self]

theorem same_of_ents (ht : t.ents = s.ents) : Same s t := by
  intro d m j b _
  simp only [FS.Named, ht]

theorem next_ok (e : t.next = s.next) : t.next ≤ s.next + 1 := by omega

/-- A new name, which the kernel does not know about yet. -/
theorem Good.newName {x : Sys} (G : Good h x) (J : Inv h t) (F : Frame x.d.fs t nobody nobody)
    {p i : Nat} {n : Name} {b : Bool} (hn : Proper n) (hf : x.k.Free p n)
    (hc : NamesChange x.d.fs t (fun _ _ => False) fun d m j b' => d = p ∧ m = n ∧ j = i ∧ b' = b)
    (hh : ∀ y, x.k.held.get i = some y →
      b = false ∧ ∃ p' n', Proper n' ∧ x.d.fs.Named p' n' i false) (hp : x.d.fs.Dir p) :
    Good h ⟨{ x.d with fs := t }, { x.k with dcache := x.k.dcache.erase p n }⟩ := by
  have hold : ∀ d m j c, Proper m → x.d.fs.Named d m j c → t.Named d m j c :=
    fun d m j c h1 h2 => (hc _ _ _ _ h1).2 (Or.inr ⟨h2, id⟩)
  have hnew : t.Named p n i b := (hc _ _ _ _ hn).2 (Or.inl ⟨rfl, rfl, rfl, rfl⟩)
  refine ⟨J, ?_, G.tab, ?_, ?_, ?_⟩
  · refine Tree.step G.tree G.fs J (fun d m j h1 h2 _ => Or.inl (hold _ _ _ _ h1 h2)) ?_
    intro d m j h1 h2
    rcases (hc _ _ _ _ h1).1 h2 with ⟨rfl, rfl, rfl, rfl⟩ | ⟨h3, _⟩
    · refine Or.inr (.child ?_ h1 h2)
      exact rooted_step (fun d m j h1 h2 _ => Or.inl (hold _ _ _ _ h1 h2)) J (G.tree _ hp)
        (J.entDir _ h2)
    · exact Or.inl ⟨d, m, h3⟩
  · refine G.typ.step F.next ?_
    intro d m j c y h1 h2 h3
    rcases (hc _ _ _ _ h1).1 h2 with ⟨rfl, rfl, rfl, rfl⟩ | ⟨h4, _⟩
    · exact Or.inr (hh _ h3)
    · exact Or.inl h4
  · refine G.nm.doubt hf ?_
    intro d m j c h1 h2
    refine ⟨fun h3 => ?_, hold _ _ _ _ h1⟩
    rcases (hc _ _ _ _ h1).1 h3 with ⟨h4, h5, _⟩ | ⟨h4, _⟩
    · exact absurd ⟨h4, h5⟩ h2
    · exact h4
  · exact G.use.step F (fun _ => id) (fun _ _ _ h1 => h1.elim) (fun _ h1 => h1.elim)

theorem Good.not_taken {x : Sys} (G : Good h x) {p : Nat} {n : Name} (hk : x.k.Free p n) :
    ¬ x.d.fs.Taken p n := (G.nm.free p n hk).2

theorem Good.next_free {x : Sys} (G : Good h x) (y : Nat × Bool) :
    x.k.held.get x.d.fs.next ≠ some y :=
  fun h1 => absurd (G.typ.below _ _ h1) (Nat.lt_irrefl _)

theorem Good.burn {x : Sys} (G : Good h x) {p : Nat} {n : Name} (hf : x.k.Free p n) :
    Good h ⟨{ x.d with fs := burn x.d.fs }, { x.k with dcache := x.k.dcache.erase p n }⟩ := by
  have hs : Same x.d.fs (Namespace.burn x.d.fs) := same_of_ents rfl
  refine ⟨burn_ok G.fs, ?_, G.tab, ?_, ?_, ⟨G.use.dead, G.use.live⟩⟩
  · refine Tree.step G.tree G.fs (burn_ok G.fs) (fun d m j h1 h2 _ => Or.inl ((hs _ _ _ _ h1).2 h2)) ?_
    intro d m j h1 h2; exact Or.inl ⟨d, m, (hs _ _ _ _ h1).1 h2⟩
  · exact G.typ.step (Nat.le_succ _) fun p n i b y h1 h2 _ => Or.inl ((hs _ _ _ _ h1).1 h2)
  · exact G.nm.doubt hf fun d m j c h1 _ => hs _ _ _ _ h1

theorem step_create {x : Sys} (G : Good h x) (hinj : Distinct h N) (hN : x.d.fs.next < N) {p : Nat} {n : Name} {f : Fault}
    (hf : x.k.Follows (.create p n f)) :
    ∃ a d, create h x.d p n f = some (a, d) ∧
      StepOk h x (.create p n f) a ⟨d, x.k.learn (.create p n f) a⟩ := by
  obtain ⟨hn, hp, hl, hfr⟩ := hf
  obtain ⟨pfd, _, h1⟩ := G.tab.has hp
  have hdir := G.linked_dir hl hp
  unfold create
  rw [h1]
  dsimp only
  by_cases h2 : f = .op
  · rw [if_pos h2]
    exact ⟨_, _, rfl, G.burn hfr, ⟨rfl, Or.inl ⟨h2, same_of_ents rfl⟩⟩, fun _ _ _ _ _ => rfl, Nat.le_refl _⟩
  · obtain ⟨t, g1, g2, g3, g4, g5⟩ := create_ok G.fs hdir (G.not_taken hfr)
    have hc : NamesChange x.d.fs t _ _ := names_cons g5
    have hG := G.newName g2 g3 hn hfr hc (fun y h3 => absurd h3 (G.next_free y)) hdir
    have hnew : t.Named p n x.d.fs.next false := (hc _ _ _ _ hn).2 (Or.inl ⟨rfl, rfl, rfl, rfl⟩)
    have heff : Effect x.d.fs t (.create p n) (.ok x.d.fs.next) :=
      ⟨G.fs.fresh (Nat.le_refl _), hc⟩
    rw [if_neg h2, g1]
    dsimp only
    rw [newEntry_ok (d := { x.d with fs := t }) (fd := ⟨none, 1⟩) g2 hinj (by rw [g4]; exact hN) hn hnew rfl (G.no_name hfr)]
    by_cases h3 : f = .attr
    · rw [if_pos h3]
      exact ⟨_, _, rfl, hG, ⟨rfl, Or.inr ⟨h3, _, heff⟩⟩, fun i _ _ _ _ => g3.items i id, Nat.le_of_eq g4⟩
    · rw [if_neg h3]
      refine ⟨_, _, rfl, ?_, ⟨rfl, heff⟩, fun i _ _ _ _ => g3.items i id, Nat.le_of_eq g4⟩
      have := hG.hold (fd := ⟨none, 1⟩) hn hnew rfl (fun _ => rfl) (NameMap.get_set _ _ _ _)
      simp only [Kernel.know, Kernel.hold, NameMap.erase_set] at this
      exact this

theorem step_mkdir {x : Sys} (G : Good h x) (hinj : Distinct h N) (hN : x.d.fs.next < N) {p : Nat} {n : Name} {f : Fault}
    (hf : x.k.Follows (.mkdir p n f)) :
    ∃ a d, mkdir h x.d p n f = some (a, d) ∧
      StepOk h x (.mkdir p n f) a ⟨d, x.k.learn (.mkdir p n f) a⟩ := by
  obtain ⟨hn, hp, hl, hfr⟩ := hf
  obtain ⟨pfd, _, h1⟩ := G.tab.has hp
  have hdir := G.linked_dir hl hp
  unfold mkdir
  rw [h1]
  dsimp only
  by_cases h2 : f = .op
  · rw [if_pos h2]
    exact ⟨_, _, rfl, G.burn hfr, ⟨rfl, Or.inl ⟨h2, same_of_ents rfl⟩⟩, fun _ _ _ _ _ => rfl, Nat.le_refl _⟩
  · obtain ⟨t, g1, g2, g3, g4, g5⟩ := mkdir_ok G.fs hdir (G.not_taken hfr)
    have hc : NamesChange x.d.fs t (fun _ _ => False)
        fun d m j b' => d = p ∧ m = n ∧ j = x.d.fs.next ∧ b' = true := by
      intro d m j b hm
      have a1 : m ≠ dot := hm.1
      have a2 : m ≠ dotdot := hm.2
      simp only [FS.Named, g5, List.mem_cons, Ent.mk.injEq]
      grind
    have hG := G.newName g2 g3 hn hfr hc (fun y h3 => absurd h3 (G.next_free y)) hdir
    have hnew : t.Named p n x.d.fs.next true := (hc _ _ _ _ hn).2 (Or.inl ⟨rfl, rfl, rfl, rfl⟩)
    have heff : Effect x.d.fs t (.mkdir p n) (.ok x.d.fs.next) :=
      ⟨G.fs.fresh (Nat.le_refl _), hc⟩
    rw [if_neg h2, g1]
    dsimp only
    rw [newEntry_ok (d := { x.d with fs := t }) (fd := ⟨some p, 1⟩) g2 hinj (by rw [g4]; exact hN) hn hnew rfl (G.no_name hfr)]
    by_cases h3 : f = .attr
    · rw [if_pos h3]
      exact ⟨_, _, rfl, hG, ⟨rfl, Or.inr ⟨h3, _, heff⟩⟩, fun i _ _ _ _ => g3.items i id, Nat.le_of_eq g4⟩
    · rw [if_neg h3]
      refine ⟨_, _, rfl, ?_, ⟨rfl, heff⟩, fun i _ _ _ _ => g3.items i id, Nat.le_of_eq g4⟩
      have := hG.hold (fd := ⟨some p, 1⟩) hn hnew rfl (fun _ => rfl) (NameMap.get_set _ _ _ _)
      simp only [Kernel.know, Kernel.hold, NameMap.erase_set] at this
      exact this

theorem step_link {x : Sys} (G : Good h x) {i p : Nat} {n : Name} {f : Fault}
    (hf : x.k.Follows (.link i p n f)) :
    ∃ a d, link x.d i p n f = some (a, d) ∧
      StepOk h x (.link i p n f) a ⟨d, x.k.learn (.link i p n f) a⟩ := by
  obtain ⟨hn, hp, hl, hfr, hi, hli⟩ := hf
  obtain ⟨pfd, _, h1⟩ := G.tab.has hp
  obtain ⟨ifd, _, h1'⟩ := G.tab.has hi
  have hdir := G.linked_dir hl hp
  obtain ⟨q, m, hk⟩ : ∃ q m, x.k.Knows q m i := by
    rcases hli with rfl | h2
    · rcases hi with ⟨_, h2⟩ | ⟨c, h2⟩
      · cases h2
      · rw [G.tab.hroot] at h2; cases h2
    · exact h2
  obtain ⟨hm, hnm⟩ := G.has_named hk hi
  obtain ⟨k0, hk0⟩ := named_inode G.fs hnm
  have hk1 : ∃ k, x.d.fs.inodes.get i = some ⟨false, k + 1⟩ := by
    cases k0 with
    | zero => exact absurd hnm (((nameless_iff G.fs).1 hk0).2 _ _ _)
    | succ k => exact ⟨k, hk0⟩
  obtain ⟨k, hk1⟩ := hk1
  unfold link
  rw [h1, h1']
  dsimp only
  by_cases h2 : f = .op
  · rw [if_pos h2]
    refine ⟨_, _, rfl, ?_, ⟨rfl, Or.inl ⟨h2, same_refl _⟩⟩, fun _ _ _ _ _ => rfl, Nat.le_succ _⟩
    exact ⟨G.fs, G.tree, G.tab, G.typ, G.nm.doubt hfr fun _ _ _ _ _ _ => Iff.rfl, G.use⟩
  · obtain ⟨t, g1, g2, g3, g4, g5⟩ := link_ok G.fs hdir (G.not_taken hfr) hk1
    have hc : NamesChange x.d.fs t _ _ := names_cons g5
    have hG := G.newName g2 g3 hn hfr hc (fun y h3 => ⟨rfl, q, m, hm, hnm⟩) hdir
    have hnew : t.Named p n i false := (hc _ _ _ _ hn).2 (Or.inl ⟨rfl, rfl, rfl, rfl⟩)
    have heff : Effect x.d.fs t (.link p i n) (.ok 0) := hc
    obtain ⟨k', hin⟩ := named_inode g2 hnew
    rw [if_neg h2, g1]
    dsimp only
    unfold getattr
    by_cases h3 : f = .attr
    · rw [if_pos h3]
      exact ⟨_, _, rfl, hG, ⟨rfl, Or.inr ⟨h3, heff⟩⟩, fun i _ _ _ _ => g3.items i id, next_ok g4⟩
    · rw [if_neg h3, hin]
      simp only [cacheName, G.no_name hfr, Option.isSome_none, Bool.false_eq_true, if_false]
      refine ⟨_, _, rfl, ?_, ⟨rfl, rfl, heff⟩, fun i _ _ _ _ => g3.items i id, next_ok g4⟩
      refine ⟨g2, hG.tree, hG.tab, hG.typ, ?_, hG.use⟩
      have := hG.nm.add (t := t) (names' := x.d.names.set p n i) (b := false) hn (i := i) (p := p) ?_
        (NameMap.get_set _ _ _ _)
      · simp only [NameMap.erase_set] at this
        exact this
      · intro d m j c _
        constructor
        · exact Or.inr
        · rintro (⟨rfl, rfl, rfl, rfl⟩ | h4)
          · exact hnew
          · exact h4

/-- A name is gone. -/
theorem Good.gone {x : Sys} (G : Good h x) (J : Inv h t) {exc dead : Nat → Prop}
    (F : Frame x.d.fs t exc dead) {p : Nat} {n : Name} (hn : Proper n)
    (hc : NamesChange x.d.fs t (fun d m => d = p ∧ m = n) fun _ _ _ _ => False)
    (hdir : ∀ j, x.d.fs.Named p n j true → ¬ t.Dir j)
    (he : ∀ i, ¬ exc i) (hd : ∀ i, dead i → ∃ c, x.k.held.get i = some (c, false)) :
    Good h ⟨{ x.d with fs := t, names := x.d.names.erase p n }, x.k.know p n none⟩ := by
  have hc' : ∀ d m j c, Proper m →
      (t.Named d m j c ↔ x.d.fs.Named d m j c ∧ ¬ (d = p ∧ m = n)) := by
    intro d m j c h1
    rw [hc _ _ _ _ h1]
    exact ⟨fun h2 => h2.elim False.elim id, Or.inr⟩
  refine ⟨J, ?_, G.tab, ?_, G.nm.drop hn hc' (NameMap.get_erase _ _ _), ?_⟩
  · refine Tree.step G.tree G.fs J ?_ ?_
    · intro d m j h1 h2 h3
      refine Or.inl ((hc' _ _ _ _ h1).2 ⟨h2, ?_⟩)
      rintro ⟨rfl, rfl⟩
      exact hdir j h2 h3
    · intro d m j h1 h2; exact Or.inl ⟨d, m, ((hc' _ _ _ _ h1).1 h2).1⟩
  · exact G.typ.step F.next fun d m j c y h1 h2 _ => Or.inl ((hc' _ _ _ _ h1).1 h2).1
  · exact G.use.step F (fun _ => id) (fun i _ _ h1 => absurd h1 (he i)) hd

theorem step_unlink {x : Sys} (G : Good h x) (hinj : Distinct h N) (hN : x.d.fs.next < N) {p : Nat} {n : Name} {f : Fault}
    (hf : x.k.Follows (.unlink p n f)) :
    ∃ a d, unlink h x.d p n f = some (a, d) ∧
      StepOk h x (.unlink p n f) a ⟨d, x.k.learn (.unlink p n f) a⟩ := by
  obtain ⟨hp, i, hk, hi⟩ := hf
  obtain ⟨pfd, _, h1⟩ := G.tab.has hp
  obtain ⟨ifd, h2, _⟩ := G.tab.has hi
  obtain ⟨hn, hnm⟩ := G.has_named hk hi
  have hheld : ∃ c, x.k.held.get i = some (c, false) := by
    rcases hi with ⟨_, h3⟩ | h3
    · cases h3
    · exact h3
  unfold unlink
  rw [h1]
  dsimp only
  rw [G.taken hk]
  simp only [Option.bind_some, h2, Option.map_some, Option.any_some, decide_eq_true_eq,
    if_neg (G.tab.count h2)]
  by_cases h3 : f = .op
  · rw [if_pos h3]
    exact ⟨_, _, rfl, G, ⟨same_refl _, rfl, h3⟩, fun _ _ _ _ _ => rfl, Nat.le_succ _⟩
  · rw [if_neg h3]
    obtain ⟨t, g1, g2, g3, g4, g5⟩ := unlink_ok (fd := some i) G.fs hnm (Or.inl rfl) (by
      intro _ h4
      cases hd : x.d.fs.dying.get (h i) with
      | none => rfl
      | some j =>
        have := dying_inj G.fs hinj (Nat.le_of_lt hN) (G.fs.next _ _ h4) j hd
        subst this
        have := (G.fs.dyout _ _ hd).2
        rw [h4] at this; injection this with this; injection this with _ this; cases this)
    rw [g1]
    have hc : NamesChange x.d.fs t (fun d m => d = p ∧ m = n) fun _ _ _ _ => False := by
      intro d m j b _
      simp only [FS.Named, g5, mem_erase]
      simp
    refine ⟨_, _, rfl, ?_, ⟨⟨i, false, hnm⟩, hc⟩, ?_, ?_⟩
    · refine G.gone g2 g3 hn hc ?_ (fun j h4 => by simp at h4) ?_
      · intro j h4
        have := (named_eq G.fs hnm h4).2
        cases this
      · rintro j ⟨rfl, _⟩; exact hheld
    · intro j _ _ _ _
      exact g3.items j (fun h4 => by simp at h4)
    · exact next_ok g4

theorem step_rmdir {x : Sys} (G : Good h x) {p : Nat} {n : Name} {f : Fault}
    (hf : x.k.Follows (.rmdir p n f)) :
    ∃ a d, rmdir x.d p n f = some (a, d) ∧
      StepOk h x (.rmdir p n f) a ⟨d, x.k.learn (.rmdir p n f) a⟩ := by
  obtain ⟨hp, i, hk, hi⟩ := hf
  obtain ⟨pfd, _, h1⟩ := G.tab.has hp
  obtain ⟨hn, hnm⟩ := G.has_named hk hi
  unfold rmdir
  rw [h1]
  dsimp only
  by_cases h3 : f = .op
  · rw [if_pos h3]
    exact ⟨_, _, rfl, G, ⟨same_refl _, Or.inl ⟨rfl, h3⟩⟩, fun _ _ _ _ _ => rfl, Nat.le_succ _⟩
  · rw [if_neg h3]
    by_cases hemp : ∃ e ∈ x.d.fs.ents, e.dir = i ∧ Proper e.name
    · rw [rmdir_notempty G.fs hn hnm hemp]
      refine ⟨_, _, rfl, G, ⟨same_refl _, Or.inr ⟨rfl, i, hnm, ?_⟩⟩, fun _ _ _ _ _ => rfl, Nat.le_succ _⟩
      obtain ⟨⟨d, m, k, b⟩, a1, a2, a3⟩ := hemp
      have a2 : d = i := a2
      subst a2
      exact ⟨m, a3, k, b, a1⟩
    · obtain ⟨t, g1, g2, g3, g4, g5, g6⟩ := rmdir_ok G.fs hn hnm hemp
      rw [g1]
      have hc : NamesChange x.d.fs t (fun d m => d = p ∧ m = n) fun _ _ _ _ => False := by
        intro d m j b hm
        simp only [FS.Named, g6, List.mem_filter, mem_erase]
        constructor
        · intro a1; exact Or.inr a1.1
        · rintro (a1 | a1)
          · exact a1.elim
          · refine ⟨a1, ?_⟩
            simp only [ne_eq, decide_not, Bool.not_eq_true', decide_eq_false_iff_not]
            exact fun a2 => hemp ⟨_, a1.1, a2, hm⟩
      refine ⟨_, _, rfl, ?_, ⟨⟨i, true, hnm⟩, hc⟩, fun j _ _ _ _ => g3.items j id, next_ok g4⟩
      refine G.gone g2 g3 hn hc ?_ (fun _ => id) (fun _ h4 => h4.elim)
      rintro j h4 ⟨k, h5⟩
      rw [← (named_eq G.fs hnm h4).1, g5] at h5
      cases h5

theorem step_getattr {x : Sys} (G : Good h x) {i : Nat} {f : Fault}
    (hf : x.k.Follows (.getattr i f)) :
    ∃ a d, attr x.d i f = some (a, d) ∧
      StepOk h x (.getattr i f) a ⟨d, x.k.learn (.getattr i f) a⟩ := by
  obtain ⟨b, hi⟩ := hf
  obtain ⟨ifd, _, h1⟩ := G.tab.has hi
  unfold attr
  rw [h1]
  dsimp only
  unfold getattr
  by_cases h2 : f = .attr
  · rw [if_pos h2]
    exact ⟨_, _, rfl, G, ⟨same_refl _, Or.inl ⟨rfl, h2⟩⟩, fun _ _ _ _ _ => rfl, Nat.le_succ _⟩
  · rw [if_neg h2]
    cases h3 : x.d.fs.inodes.get i with
    | none => exact ⟨_, _, rfl, G, ⟨same_refl _, Or.inr ⟨rfl, h3⟩⟩, fun _ _ _ _ _ => rfl, Nat.le_succ _⟩
    | some y => exact ⟨_, _, rfl, G, ⟨rfl, same_refl _, y.nlink, h3⟩, fun _ _ _ _ _ => rfl, Nat.le_succ _⟩

theorem step_write {x : Sys} (G : Good h x) {i k : Nat} {f : Fault}
    (hf : x.k.Follows (.write i k f)) :
    ∃ a d, write x.d i k f = some (a, d) ∧
      StepOk h x (.write i k f) a ⟨d, x.k.learn (.write i k f) a⟩ := by
  obtain ⟨hi, hr⟩ := hf
  obtain ⟨ifd, _, h1⟩ := G.tab.has hi
  unfold write
  rw [h1]
  dsimp only
  by_cases h2 : f = .op
  · rw [if_pos h2]
    exact ⟨_, _, rfl, G, ⟨same_refl _, rfl, h2⟩, fun _ _ _ _ _ => rfl, Nat.le_succ _⟩
  · rw [if_neg h2]
    obtain ⟨c, hh⟩ : ∃ c, x.k.held.get i = some (c, false) := by
      rcases hi with ⟨_, h3⟩ | h3
      · cases h3
      · exact h3
    obtain ⟨t, g1, g2, g3, g4, g5, g6, _, _⟩ := store_ok (k := k) G.fs (G.use.live i c hh hr)
    rw [g1]
    have hs : Same x.d.fs t := same_of_ents g4
    refine ⟨_, _, rfl, ?_, hs, fun j _ _ _ h3 => g6 j fun h4 => h3 h4.symm,
      next_ok g3⟩
    refine ⟨g2, ?_, G.tab, ?_, G.nm.same hs, ?_⟩
    · refine Tree.step G.tree G.fs g2 (fun d m j h1 h2 _ => Or.inl ((hs _ _ _ _ h1).2 h2)) ?_
      intro d m j h1 h2; exact Or.inl ⟨d, m, (hs _ _ _ _ h1).1 h2⟩
    · exact G.typ.step (Nat.le_of_eq g3.symm)
        fun p n i b y h1 h2 _ => Or.inl ((hs _ _ _ _ h1).1 h2)
    · refine ⟨fun j hj => ?_, fun j c' hj hnr => ?_⟩
      · have hj : t.inodes.get j = some ⟨false, 0⟩ := hj
        rw [g5] at hj; exact G.use.dead j hj
      · obtain ⟨m, h3⟩ := G.use.live j c' hj hnr
        exact ⟨m, by show t.inodes.get j = _; rw [g5]; exact h3⟩

theorem step_rename {x : Sys} (G : Good h x) {p np : Nat} {n nn : Name} {f : Fault}
    (hf : x.k.Follows (.rename p n np nn f)) :
    ∃ a d, rename h x.d p n np nn f = some (a, d) ∧
      StepOk h x (.rename p n np nn f) a ⟨d, x.k.learn (.rename p n np nn f) a⟩ := by
  obtain ⟨hnn, hp, hnp, hro, i, b, hk, hi, hne, hdst⟩ := hf
  obtain ⟨pfd, _, h1⟩ := G.tab.has hp
  obtain ⟨npfd, h2', h2⟩ := G.tab.has hnp
  obtain ⟨ifd, h3', h3⟩ := G.tab.has hi
  obtain ⟨hn, hnm⟩ := G.has_named hk hi
  have hi1 := named_ne_one G.fs hn hnm
  obtain ⟨ci, hih⟩ : ∃ c, x.k.held.get i = some (c, b) := by
    rcases hi with ⟨h4, _⟩ | h4
    · exact absurd h4 hi1
    · exact h4
  have hnpd : x.d.fs.Dir np := by
    refine G.linked_dir ?_ hnp
    cases hro with
    | root => exact Or.inl rfl
    | child _ _ h4 => exact Or.inr ⟨_, _, h4⟩
  obtain ⟨m, hdeep⟩ := G.deep hro hnp
  have hbound := hdeep.bound G.fs h2'
  obtain ⟨r, hloop, hr⟩ := dirloop_ok G.fs G.tab G.typ (fuel := x.d.files.length + 1) hdeep h2'
    (by omega) (Ne.symm hne)
  -- what is at the destination
  have hty : ∀ j b', x.d.fs.Named np nn j b' → b' = b ∧ j ≠ i ∧ x.k.Knows np nn j := by
    intro j b' h4
    rcases hdst with h5 | ⟨j', h5, h6, h7⟩
    · exact absurd ⟨j, b', h4⟩ (G.not_taken h5)
    · obtain ⟨rfl, rfl⟩ := named_eq G.fs (G.has_named h5 h6).2 h4
      exact ⟨rfl, h7, h5⟩
  have hni : ∀ j, x.d.names.get np nn = some j ↔ ∃ b, x.d.fs.Named np nn j b := by
    intro j
    constructor
    · intro h4; exact (G.nm.known _ _ _ ((G.nm.names _ _ _).1 h4)).2
    · rintro ⟨b', h4⟩; exact G.taken (hty j b' h4).2.2
  unfold rename
  rw [G.taken hk]
  dsimp only
  rw [h1, h2, h3]
  dsimp only
  rw [hloop]
  cases r with
  | true =>
    refine ⟨_, _, rfl, G, ⟨same_refl _, Or.inr (Or.inl ⟨rfl, i, ?_, hr.1 rfl⟩)⟩, fun _ _ _ _ _ => rfl, Nat.le_succ _⟩
    cases b with
    | true => exact hnm
    | false =>
      -- nothing is below a file
      exfalso
      have : ∀ j, FS.Below x.d.fs i j → j = i ∨ False := by
        intro j hj
        induction hj with
        | here => exact Or.inl rfl
        | child _ h5 h6 ih =>
          rcases ih with h7 | h7
          · subst h7
            obtain ⟨k1, h8⟩ := G.fs.entDir _ h6
            obtain ⟨k2, h9⟩ := named_inode G.fs hnm
            have h8 : x.d.fs.inodes.get _ = some ⟨true, k1⟩ := h8
            rw [h8] at h9; cases h9
          · exact h7.elim
      rcases this np (hr.1 rfl) with h5 | h5
      · exact hne h5
      · exact h5
  | false =>
    have hb : ¬ FS.Below x.d.fs i np := fun h4 => by cases hr.2 h4
    dsimp only
    by_cases h4 : f = .op
    · rw [if_pos h4]
      exact ⟨_, _, rfl, G, ⟨same_refl _, Or.inl ⟨rfl, h4⟩⟩, fun _ _ _ _ _ => rfl, Nat.le_succ _⟩
    · rw [if_neg h4]
      rcases rename_ok G.fs hn hnm (fun j b' h5 => (hty j b' h5).1) hnpd hnn hni with
        ⟨g1, g2⟩ | ⟨t, g1, g2, g3, g4, g5⟩
      · rw [g1]
        exact ⟨_, _, rfl, G, ⟨same_refl _, Or.inr (Or.inr ⟨rfl, g2⟩)⟩, fun _ _ _ _ _ => rfl, Nat.le_succ _⟩
      · rw [g1]
        dsimp only
        rw [if_neg (fun h5 => h5 rfl)]
        have hpn : ¬ (p = np ∧ n = nn) := by
          rintro ⟨rfl, rfl⟩
          exact (hty i b hnm).2.1 rfl
        have hch : ∀ d m j b', Proper m → (t.Named d m j b' ↔
            (d = np ∧ m = nn ∧ j = i ∧ b' = b) ∨
            (x.d.fs.Named d m j b' ∧ ¬ ((d = p ∧ m = n) ∨ (d = np ∧ m = nn)))) := by
          intro d m j b' hm
          have a1 := g5 ⟨d, m, j, b'⟩ hm
          simp only [FS.Named] at a1 ⊢
          rw [a1]
          simp only [mem_erase, Ent.mk.injEq]
          grind
        have hk' : x.k.dcache.get p n = some (some i) := hk
        have hH : (x.k.learn (.rename p n np nn f) .ok).held = x.k.held := by
          simp only [Kernel.learn, Kernel.moved, hk']; rfl
        have hD : (x.k.learn (.rename p n np nn f) .ok).dcache =
            (x.k.dcache.set p n none).set np nn (some i) := by
          simp only [Kernel.learn, Kernel.moved, hk']; rfl
        have hR : (x.k.learn (.rename p n np nn f) .ok).replaced =
            match x.k.dcache.get np nn with
            | some (some j) => j :: x.k.replaced
            | _ => x.k.replaced := by
          simp only [Kernel.learn, Kernel.moved, hk']
          cases x.k.dcache.get np nn with
          | none => rfl
          | some v => cases v <;> rfl
        have hrep : ∀ j, j ∈ x.k.replaced → j ∈ (x.k.learn (.rename p n np nn f) .ok).replaced := by
          intro j hj
          rw [hR]
          split
          · exact List.mem_cons_of_mem _ hj
          · exact hj
        have hexc : ∀ j, (x.d.fs.Named np nn j false ∧ j ≠ i) →
            j ∈ (x.k.learn (.rename p n np nn f) .ok).replaced := by
          rintro j ⟨h5, _⟩
          have h6 : x.k.dcache.get np nn = some (some j) := (hty j false h5).2.2
          rw [hR, h6]
          exact List.mem_cons_self ..
        have htab : renameTables { x.d with fs := t } i p n np nn = some
            { x.d with
              fs := t
              names := ((x.d.names.erase np nn).erase p n).set np nn i
              files := x.d.files.insert i (ifd.reparent np) } := by
          have h5 : (x.d.names.erase np nn).get p n = some i := by
            rw [NameMap.get_erase, if_neg hpn]; exact G.taken hk
          simp only [renameTables, h5, h3', ne_eq, not_true_eq_false, if_false]
        rw [htab]
        refine ⟨_, _, rfl, ?_, ⟨i, b, hnm, hb, rfl, ?_⟩, ?_, ?_⟩
        · refine ⟨g2, ?_, ?_, ?_, ?_, ?_⟩
          · refine rename_tree G.tree G.fs g2 hn hnn hnm
              (fun j b' h5 => ⟨(hty j b' h5).1, (hty j b' h5).2.1⟩) hnpd hb ?_ hch
            intro j hj
            exact rename_target_empty G.fs hnn hj g1
          · show Tab _ (x.k.learn _ _).held
            rw [hH]; exact G.tab.reparent hi1 h3'
          · show Typ _ (x.k.learn _ _).held _
            rw [hH]
            constructor
            · intro j y h5
              exact Nat.lt_of_lt_of_le (G.typ.below j y h5) (Nat.le_of_eq g4.symm)
            · intro d m' j b1 c b2 h5 h6 h7
              rcases (hch _ _ _ _ h5).1 h6 with ⟨_, _, rfl, rfl⟩ | ⟨h8, _⟩
              · exact G.typ.kinds _ _ _ _ _ _ hn hnm h7
              · exact G.typ.kinds _ _ _ _ _ _ h5 h8 h7
            · intro j fd c h5 h6
              rw [OMap.get_insert] at h5
              by_cases h7 : j = i
              · subst h7
                rw [if_pos rfl] at h5
                injection h5 with h5
                have hbt : true = b := by
                  rw [hih] at h6; injection h6 with h6; injection h6 with _ h6; exact h6.symm
                subst hbt
                obtain ⟨q, h8, _⟩ := G.typ.dirs j ifd c h3' h6
                refine ⟨np, by rw [← h5]; simp [Fd.reparent, h8], ?_⟩
                intro d m' h9 h10
                rcases (hch _ _ _ _ h9).1 h10 with ⟨h11, _⟩ | ⟨h11, h12⟩
                · exact h11
                · exact absurd (Or.inl (G.fs.dir_unique h9 hn h11 hnm)) h12
              · rw [if_neg h7] at h5
                obtain ⟨q, h8, h9⟩ := G.typ.dirs j fd c h5 h6
                refine ⟨q, h8, ?_⟩
                intro d m' h10 h11
                rcases (hch _ _ _ _ h10).1 h11 with ⟨_, _, h12, _⟩ | ⟨h12, _⟩
                · exact absurd h12 h7
                · exact h9 d m' h10 h12
            · intro j fd c h5 h6
              rw [OMap.get_insert] at h5
              by_cases h7 : j = i
              · subst h7
                rw [if_pos rfl] at h5
                injection h5 with h5
                have := G.typ.files j ifd c h3' h6
                rw [← h5]; simp [Fd.reparent, this]
              · rw [if_neg h7] at h5
                exact G.typ.files j fd c h5 h6
          · show Nm _ (x.k.learn _ _).dcache _
            rw [hD]
            -- first the old name goes, then the new one comes
            have N1 := G.nm.names
            constructor
            · intro d m' j
              show (((x.d.names.erase np nn).erase p n).set np nn i).get d m' = some j ↔
                ((x.k.dcache.set p n none).set np nn (some i)).get d m' = some (some j)
              rw [NameMap.get_set, NameMap.get_set, NameMap.get_erase, NameMap.get_erase,
                NameMap.get_set]
              by_cases h5 : d = np ∧ m' = nn
              · rw [if_pos h5, if_pos h5]; simp
              · rw [if_neg h5, if_neg h5, if_neg h5]
                by_cases h6 : d = p ∧ m' = n
                · rw [if_pos h6, if_pos h6]; simp
                · rw [if_neg h6, if_neg h6]; exact N1 d m' j
            · intro d m' j h5
              have h5 : ((x.k.dcache.set p n none).set np nn (some i)).get d m' = some (some j) := h5
              rw [NameMap.get_set, NameMap.get_set] at h5
              by_cases h6 : d = np ∧ m' = nn
              · rw [if_pos h6] at h5
                injection h5 with h5; injection h5 with h5
                subst h5
                rw [h6.1, h6.2]
                exact ⟨hnn, b, (hch _ _ _ _ hnn).2 (Or.inl ⟨rfl, rfl, rfl, rfl⟩)⟩
              · rw [if_neg h6] at h5
                by_cases h7 : d = p ∧ m' = n
                · rw [if_pos h7] at h5; injection h5 with h5; cases h5
                · rw [if_neg h7] at h5
                  obtain ⟨h8, b', h9⟩ := G.nm.known _ _ _ h5
                  exact ⟨h8, b', (hch _ _ _ _ h8).2 (Or.inr ⟨h9, fun h10 => h10.elim h7 h6⟩)⟩
            · intro d m' h5
              have h5 : ((x.k.dcache.set p n none).set np nn (some i)).get d m' = some none := h5
              rw [NameMap.get_set, NameMap.get_set] at h5
              by_cases h6 : d = np ∧ m' = nn
              · rw [if_pos h6] at h5
                injection h5 with h5; cases h5
              · rw [if_neg h6] at h5
                by_cases h7 : d = p ∧ m' = n
                · rw [h7.1, h7.2]
                  refine ⟨hn, ?_⟩
                  rintro ⟨j, b', h8⟩
                  rcases (hch _ _ _ _ hn).1 h8 with ⟨h9, h10, _⟩ | ⟨_, h9⟩
                  · exact hpn ⟨h9, h10⟩
                  · exact h9 (Or.inl ⟨rfl, rfl⟩)
                · rw [if_neg h7] at h5
                  obtain ⟨h8, h9⟩ := G.nm.free _ _ h5
                  refine ⟨h8, ?_⟩
                  rintro ⟨j, b', h10⟩
                  rcases (hch _ _ _ _ h8).1 h10 with ⟨h11, h12, _⟩ | ⟨h11, _⟩
                  · exact h6 ⟨h11, h12⟩
                  · exact h9 ⟨j, b', h11⟩
          · have := G.use.step g3 hrep (fun j _ _ h5 => hexc j h5) (fun _ h5 => h5.elim)
            show Use (x.k.learn _ _).held _ _
            rw [hH]
            exact this
        · intro d m' j b' hm'
          rw [hch _ _ _ _ hm']
          have huniq : ∀ b2, x.d.fs.Named p n i b2 ↔ b2 = b := by
            intro b2
            exact ⟨fun h5 => (named_eq G.fs h5 hnm).2, fun h5 => h5 ▸ hnm⟩
          dsimp only
          rw [huniq]
        · intro j c _ h6 _
          exact g3.items j fun h5 => h6 (hexc j h5)
        · exact next_ok g4

/-- Every request of the protocol. -/
theorem step_req {x : Sys} (G : Good h x) (hinj : Distinct h N) (hN : x.d.fs.next < N) {r : Req} (hf : x.k.Follows r) :
    ∃ a x', x.step h (.req r) = some (a, x') ∧ StepOk h x r a x' := by
  have key : ∃ a d, x.d.serve h r = some (a, d) ∧ StepOk h x r a ⟨d, x.k.learn r a⟩ := by
    cases r with
    | lookup p n f => exact step_lookup G hinj hN hf
    | forget i c => exact step_forget G hinj hN hf
    | create p n f => exact step_create G hinj hN hf
    | mkdir p n f => exact step_mkdir G hinj hN hf
    | link i p n f => exact step_link G hf
    | unlink p n f => exact step_unlink G hinj hN hf
    | rmdir p n f => exact step_rmdir G hf
    | rename p n np nn f => exact step_rename G hf
    | getattr i f => exact step_getattr G hf
    | write i k f => exact step_write G hf
  obtain ⟨a, d, h1, h2⟩ := key
  exact ⟨a, _, by simp only [Sys.step, h1, Option.map_some], h2⟩

theorem start_good (I : Inv h s) (T : Tree s) (hd : ∀ i, s.inodes.get i ≠ some ⟨false, 0⟩) :
    Good h ⟨Daemon.start s, Kernel.new⟩ := by
  have hnone : ∀ i, (Kernel.new.held).get i = none := fun _ => rfl
  refine ⟨I, T, ⟨rfl, rfl, ?_, ?_, ?_, ?_⟩, ⟨?_, ?_, ?_, ?_⟩, ⟨?_, ?_, ?_⟩, ?_, ?_⟩
  · intro i hi
    simp [Daemon.start, Kernel.new, OMap.get, Ne.symm hi]
  · intro i c b h1; rw [hnone] at h1; cases h1
  · show OMap.Sorted _; simp [Daemon.start, OMap.Sorted]
  · show OMap.Sorted _; simp [Kernel.new, OMap.Sorted]
  · intro i x h1; rw [hnone] at h1; cases h1
  · intro p n i b c b' _ _ h1; rw [hnone] at h1; cases h1
  · intro i fd c _ h1; rw [hnone] at h1; cases h1
  · intro i fd c _ h1; rw [hnone] at h1; cases h1
  · intro p n i
    constructor
    · intro h1; cases h1
    · intro h1; cases h1
  · intro p n i h1; cases h1
  · intro p n h1; cases h1
  · intro i h1; exact absurd h1 (hd i)
  · intro i c h1; rw [hnone] at h1; cases h1

theorem new_good : Good h Sys.new := by
  refine start_good (new_inv (h := h)) ?_ ?_
  · rintro i ⟨k, h1⟩
    have h1 : OMap.get createFs.inodes i = some ⟨true, k⟩ := h1
    by_cases h2 : i = 1
    · subst h2; exact .root
    · simp [createFs, OMap.get, Ne.symm h2] at h1
  · intro i h1
    have h1 : OMap.get createFs.inodes i = some ⟨false, 0⟩ := h1
    by_cases h2 : i = 1
    · subst h2; simp [createFs, OMap.get] at h1
    · simp [createFs, OMap.get, Ne.symm h2] at h1

theorem remount_good {x : Sys} (G : Good h x) (early : Bool) :
    Good h ⟨Daemon.start (mount x.d.fs early), Kernel.new⟩ := by
  obtain ⟨h1, h2, h3, _⟩ := mount_ok G.fs early
  have hs : Same x.d.fs (mount x.d.fs early) := same_of_ents h2
  refine start_good h1 ?_ ?_
  · refine Tree.step G.tree G.fs h1 (fun d m j h1 h2 _ => Or.inl ((hs _ _ _ _ h1).2 h2)) ?_
    intro d m j h1 h2; exact Or.inl ⟨d, m, (hs _ _ _ _ h1).1 h2⟩
  · intro i h4; exact absurd rfl ((h3 i _).1 h4).2

theorem foldl_max_le {l : List Nat} {a m : Nat} (ha : a ≤ m) (hl : ∀ x ∈ l, x ≤ m) :
    l.foldl max a ≤ m := by
  induction l generalizing a with
  | nil => exact ha
  | cons x l ih =>
    refine ih ?_ fun y hy => hl y (List.mem_cons_of_mem _ hy)
    have := hl x (List.mem_cons_self ..)
    exact Nat.max_le.2 ⟨ha, this⟩

/-- The highest number in use is one that was issued. -/
theorem lastObject_lt (I : Inv h s) : lastObject s + 1 ≤ s.next := by
  obtain ⟨k, hr⟩ := I.root
  have hr := I.next _ _ hr
  have : lastObject s ≤ s.next - 1 := by
    refine foldl_max_le (Nat.zero_le _) ?_
    intro x hx
    have hlt : x < s.next := by
      rcases List.mem_append.1 hx with hx | hx
      · rcases List.mem_append.1 hx with hx | hx
        · obtain ⟨⟨a, y⟩, h1, rfl⟩ := List.mem_map.1 hx
          exact I.next _ _ (OMap.get_of_mem I.isorted h1)
        · obtain ⟨e, h1, rfl⟩ := List.mem_map.1 hx
          obtain ⟨m, h2⟩ := I.entDir e h1
          exact I.next _ _ h2
      · obtain ⟨y, h1, rfl⟩ := List.mem_map.1 hx
        obtain ⟨m, h2⟩ := I.items y h1
        exact I.next _ _ h2
    omega
  omega

theorem mount_next (I : Inv h s) (early : Bool) : (mount s early).next ≤ s.next := by
  cases early with
  | true => exact lastObject_lt I
  | false =>
    obtain ⟨a1, _, a3, _, _⟩ := purge_aux s.dying s I rfl
    exact Nat.le_trans (lastObject_lt a1) (Nat.le_of_eq a3)

end Verif.Fuse
