import Verif.Reserve.Spec

/-!
# Bounds on what a program draws
-/

namespace Verif.Reserve
open Verif.Isol

variable {w : Act → Nat} {Q : Store → Prop}

/-- A program draws no more than `n`, if each operation draws `w` and the tree is always in `Q`. -/
def Within (w : Act → Nat) (Q : Store → Prop) : Prog → Nat → Prop
  | .ret _, _ => True
  | .get k f, n => ∀ m, Q m → Within w Q (f (m k)) n
  | .insert k v f, n => ∃ n', w (.insert v) + n' ≤ n ∧ ∀ m, Q m → Within w Q (f (m k)) n'
  | .remove k f, n => ∃ n', w .remove + n' ≤ n ∧ ∀ m, Q m → Within w Q (f (m k)) n'
  | .scan lo hi f, n => ∀ m, Q m → Within w Q (f (m.items lo hi)) n
  | .clear _ _ p, n => ∃ n', w .clear + n' ≤ n ∧ Within w Q p n'
  | .join p q f, n => ∃ a b c, a + b + c ≤ n ∧ Within w Q p a ∧ Within w Q q b ∧
      ∀ r s, Within w Q (f r s) c

theorem Within.mono {p : Prog} {n n' : Nat} (h : Within w Q p n) (hn : n ≤ n') : Within w Q p n' := by
  induction p generalizing n n' with
  | ret => trivial
  | get k f ih => exact fun m hm => ih _ (h m hm) hn
  | insert k v f ih => obtain ⟨x, h1, h2⟩ := h; exact ⟨x, by omega, h2⟩
  | remove k f ih => obtain ⟨x, h1, h2⟩ := h; exact ⟨x, by omega, h2⟩
  | scan lo hi f ih => exact fun m hm => ih _ (h m hm) hn
  | clear lo hi p ih => obtain ⟨x, h1, h2⟩ := h; exact ⟨x, by omega, h2⟩
  | join p q f _ _ _ => obtain ⟨a, b, c, h1, h2⟩ := h; exact ⟨a, b, c, by omega, h2⟩

def cost (w : Act → Nat) : Option Act → Nat
  | none => 0
  | some a => w a

theorem Within.step {p p' : Prog} {m m' : Store} {a : Option Act} {n : Nat} (hs : StepA p m a p' m')
    (hm : Q m) (h : Within w Q p n) : cost w a ≤ n ∧ Within w Q p' (n - cost w a) := by
  induction hs generalizing n with
  | get => exact ⟨Nat.zero_le _, h _ hm⟩
  | insert => obtain ⟨x, h1, h2⟩ := h; exact ⟨by simp only [cost]; omega, (h2 _ hm).mono (by simp only [cost]; omega)⟩
  | remove => obtain ⟨x, h1, h2⟩ := h; exact ⟨by simp only [cost]; omega, (h2 _ hm).mono (by simp only [cost]; omega)⟩
  | scan => exact ⟨Nat.zero_le _, h _ hm⟩
  | clear => obtain ⟨x, h1, h2⟩ := h; exact ⟨by simp only [cost]; omega, h2.mono (by simp only [cost]; omega)⟩
  | left _ ih =>
    obtain ⟨a, b, c, h1, h2, h3, h4⟩ := h
    obtain ⟨h5, h6⟩ := ih hm h2
    exact ⟨by omega, _, b, c, by omega, h6, h3, h4⟩
  | right _ ih =>
    obtain ⟨a, b, c, h1, h2, h3, h4⟩ := h
    obtain ⟨h5, h6⟩ := ih hm h3
    exact ⟨by omega, a, _, c, by omega, h2, h6, h4⟩
  | both =>
    obtain ⟨a, b, c, h1, h2, h3, h4⟩ := h
    exact ⟨Nat.zero_le _, (h4 _ _).mono (by simp only [cost]; omega)⟩
  | failLeft => exact ⟨Nat.zero_le _, trivial⟩
  | failRight => exact ⟨Nat.zero_le _, trivial⟩
  | panicLeft => exact ⟨Nat.zero_le _, trivial⟩
  | panicRight => exact ⟨Nat.zero_le _, trivial⟩

/-- The program may yet remove something. -/
def MayCut : Prog → Prop
  | .ret _ => False
  | .get _ f => ∃ o, MayCut (f o)
  | .insert _ _ f => ∃ o, MayCut (f o)
  | .remove _ _ => True
  | .scan _ _ f => ∃ l, MayCut (f l)
  | .clear _ _ _ => True
  | .join p q f => MayCut p ∨ MayCut q ∨ ∃ r s, MayCut (f r s)

/-- A program draws no more than `n` up to its last removal. -/
def Cuts (w : Act → Nat) (Q : Store → Prop) : Prog → Nat → Prop
  | .ret _, _ => True
  | .get k f, n => ∀ m, Q m → Cuts w Q (f (m k)) n
  | .insert k v f, n => MayCut (.insert k v f) →
      ∃ n', w (.insert v) + n' ≤ n ∧ ∀ m, Q m → Cuts w Q (f (m k)) n'
  | .remove k f, n => ∃ n', w .remove + n' ≤ n ∧ ∀ m, Q m → Cuts w Q (f (m k)) n'
  | .scan lo hi f, n => ∀ m, Q m → Cuts w Q (f (m.items lo hi)) n
  | .clear _ _ p, n => ∃ n', w .clear + n' ≤ n ∧ Cuts w Q p n'
  | .join p q f, n => MayCut (.join p q f) → ∃ a b c, a + b + c ≤ n ∧
      Cuts w Q p a ∧ Cuts w Q q b ∧ (∀ r s, Cuts w Q (f r s) c) ∧
      ((MayCut q ∨ ∃ r s, MayCut (f r s)) → Within w Q p a) ∧
      ((MayCut p ∨ ∃ r s, MayCut (f r s)) → Within w Q q b)

theorem Cuts.mono {p : Prog} {n n' : Nat} (h : Cuts w Q p n) (hn : n ≤ n') : Cuts w Q p n' := by
  induction p generalizing n n' with
  | ret => trivial
  | get k f ih => exact fun m hm => ih _ (h m hm) hn
  | insert k v f ih => intro hc; obtain ⟨x, h1, h2⟩ := h hc; exact ⟨x, by omega, h2⟩
  | remove k f ih => obtain ⟨x, h1, h2⟩ := h; exact ⟨x, by omega, h2⟩
  | scan lo hi f ih => exact fun m hm => ih _ (h m hm) hn
  | clear lo hi p ih => obtain ⟨x, h1, h2⟩ := h; exact ⟨x, by omega, h2⟩
  | join p q f _ _ _ =>
    intro hc; obtain ⟨a, b, c, h1, h2⟩ := h hc; exact ⟨a, b, c, by omega, h2⟩

theorem mayCut_step {p p' : Prog} {m m' : Store} {a : Option Act} (hs : StepA p m a p' m')
    (h : MayCut p') : MayCut p := by
  induction hs with
  | get => exact ⟨_, h⟩
  | insert => exact ⟨_, h⟩
  | remove => trivial
  | scan => exact ⟨_, h⟩
  | clear => trivial
  | left _ ih => exact h.imp ih id
  | right _ ih => exact h.imp id (Or.imp ih id)
  | both => exact .inr (.inr ⟨_, _, h⟩)
  | failLeft => exact h.elim
  | failRight => exact h.elim
  | panicLeft => exact h.elim
  | panicRight => exact h.elim

theorem cuts_of_not {p : Prog} {n : Nat} (h : ¬ MayCut p) : Cuts w Q p n := by
  induction p generalizing n with
  | ret => trivial
  | get k f ih => exact fun m hm => ih _ (fun hc => h ⟨_, hc⟩)
  | insert k v f ih => exact fun hc => absurd hc h
  | remove k f ih => exact absurd trivial h
  | scan lo hi f ih => exact fun m hm => ih _ (fun hc => h ⟨_, hc⟩)
  | clear lo hi p ih => exact absurd trivial h
  | join p q f _ _ _ => exact fun hc => absurd hc h

theorem Within.cuts {p : Prog} {n : Nat} (h : Within w Q p n) : Cuts w Q p n := by
  induction p generalizing n with
  | ret => trivial
  | get k f ih => exact fun m hm => ih _ (h m hm)
  | insert k v f ih => exact fun _ => h.imp fun x hx => ⟨hx.1, fun m hm => ih _ (hx.2 m hm)⟩
  | remove k f ih => exact h.imp fun x hx => ⟨hx.1, fun m hm => ih _ (hx.2 m hm)⟩
  | scan lo hi f ih => exact fun m hm => ih _ (h m hm)
  | clear lo hi p ih => exact h.imp fun x hx => ⟨hx.1, ih hx.2⟩
  | join p q f h1 h2 h3 =>
    obtain ⟨a, b, c, g1, g2, g3, g4⟩ := h
    exact fun _ => ⟨a, b, c, g1, h1 g2, h2 g3, fun r s => h3 r s (g4 r s), fun _ => g2, fun _ => g3⟩

def isCut : Option Act → Prop
  | some .remove => True
  | some .clear => True
  | _ => False

theorem cut_mayCut {p p' : Prog} {m m' : Store} {a : Option Act} (hs : StepA p m a p' m')
    (h : isCut a) : MayCut p := by
  induction hs with
  | left _ ih => exact .inl (ih h)
  | right _ ih => exact .inr (.inl (ih h))
  | remove => trivial
  | clear => trivial
  | _ => exact h.elim

theorem Cuts.step {p p' : Prog} {m m' : Store} {a : Option Act} {n : Nat} (hs : StepA p m a p' m')
    (hm : Q m) (hc : MayCut p) (h : Cuts w Q p n) :
    (isCut a ∨ MayCut p' → cost w a ≤ n) ∧ Cuts w Q p' (n - cost w a) := by
  induction hs generalizing n with
  | get => exact ⟨fun _ => Nat.zero_le _, h _ hm⟩
  | insert =>
    obtain ⟨x, h1, h2⟩ := h hc
    exact ⟨fun _ => by simp only [cost]; omega, (h2 _ hm).mono (by simp only [cost]; omega)⟩
  | remove =>
    obtain ⟨x, h1, h2⟩ := h
    exact ⟨fun _ => by simp only [cost]; omega, (h2 _ hm).mono (by simp only [cost]; omega)⟩
  | scan => exact ⟨fun _ => Nat.zero_le _, h _ hm⟩
  | clear =>
    obtain ⟨x, h1, h2⟩ := h
    exact ⟨fun _ => by simp only [cost]; omega, h2.mono (by simp only [cost]; omega)⟩
  | @left p p' q f m m' act hs ih =>
    obtain ⟨a, b, c, h1, h2, h3, h4, h5, h6⟩ := h hc
    by_cases hq : MayCut q ∨ ∃ r s, MayCut (f r s)
    · obtain ⟨g1, g2⟩ := (h5 hq).step hs hm
      refine ⟨fun _ => by omega, fun hc' => ⟨a - cost w act, b, c, by omega, g2.cuts, h3, h4,
        fun _ => g2, fun hp => h6 (hp.imp (mayCut_step hs) id)⟩⟩
    · have hp : MayCut p := by
        rcases hc with hc | hc
        · exact hc
        · exact absurd hc hq
      obtain ⟨g1, g2⟩ := ih hm hp h2
      have hp' : MayCut (.join p' q f) → MayCut p' := by
        rintro (h | h)
        · exact h
        · exact absurd h hq
      refine ⟨fun h => ?_, fun hc' => ?_⟩
      · have := g1 (h.imp id hp'); omega
      · have := g1 (.inr (hp' hc'))
        exact ⟨a - cost w act, b, c, by omega, g2, h3, h4, fun h => absurd h hq,
          fun hp => h6 (hp.imp (mayCut_step hs) id)⟩
  | @right p q q' f m m' act hs ih =>
    obtain ⟨a, b, c, h1, h2, h3, h4, h5, h6⟩ := h hc
    by_cases hq : MayCut p ∨ ∃ r s, MayCut (f r s)
    · obtain ⟨g1, g2⟩ := (h6 hq).step hs hm
      refine ⟨fun _ => by omega, fun hc' => ⟨a, b - cost w act, c, by omega, h2, g2.cuts, h4,
        fun hp => h5 (hp.imp (mayCut_step hs) id), fun _ => g2⟩⟩
    · have hp : MayCut q := by
        rcases hc with hc | hc | hc
        · exact absurd (.inl hc) hq
        · exact hc
        · exact absurd (.inr hc) hq
      obtain ⟨g1, g2⟩ := ih hm hp h3
      have hp' : MayCut (.join p q' f) → MayCut q' := by
        rintro (h | h | h)
        · exact absurd (.inl h) hq
        · exact h
        · exact absurd (.inr h) hq
      refine ⟨fun h => ?_, fun hc' => ?_⟩
      · have := g1 (h.imp id hp'); omega
      · have := g1 (.inr (hp' hc'))
        exact ⟨a, b - cost w act, c, by omega, h2, g2, h4,
          fun hp => h5 (hp.imp (mayCut_step hs) id), fun h => absurd h hq⟩
  | both =>
    obtain ⟨a, b, c, h1, h2, h3, h4, _⟩ := h hc
    exact ⟨fun _ => Nat.zero_le _, (h4 _ _).mono (by simp only [cost]; omega)⟩
  | failLeft => exact ⟨fun _ => Nat.zero_le _, trivial⟩
  | failRight => exact ⟨fun _ => Nat.zero_le _, trivial⟩
  | panicLeft => exact ⟨fun _ => Nat.zero_le _, trivial⟩
  | panicRight => exact ⟨fun _ => Nat.zero_le _, trivial⟩

/-! ## What this says about a call in progress -/

variable {S : Sizes} {p₀ p : Prog} {c₀ c : Nat} {l : Ledger}

theorem asked_append (l : Ledger) (e) : asked S (l ++ [e]) = asked S l + want S e.1 := by
  simp [asked]
theorem got_append (l : Ledger) (e) : got (l ++ [e]) = got l + e.2 := by simp [got]
theorem short_append (l : Ledger) (e) : short S (l ++ [e]) = short S l + (want S e.1 - e.2) := by
  simp [short]

/-- Whatever was not asked for is still there. -/
theorem Runs.left (h : Runs S Q p₀ c₀ p c l) :
    c = c₀ - asked S l ∧ got l = min c₀ (asked S l) ∧ short S l = asked S l - c₀ := by
  induction h with
  | start => simp [asked, got, short]
  | look _ _ _ ih => exact ih
  | act _ _ _ ih =>
    rw [asked_append, got_append, short_append]; dsimp only; omega

theorem Runs.within (h : Runs S Q p₀ c₀ p c l) {n : Nat} (hw : Within w Q p₀ n) :
    ∃ n', Within w Q p n' ∧ (l.map fun e => w e.1).sum + n' ≤ n := by
  induction h with
  | start => exact ⟨n, hw, by simp⟩
  | look _ hm hs ih =>
    obtain ⟨n', h1, h2⟩ := ih
    exact ⟨n', (h1.step hs hm).2.mono (by simp [cost]), h2⟩
  | @act p p' c l m m' a _ hm hs ih =>
    obtain ⟨n', h1, h2⟩ := ih
    obtain ⟨h3, h4⟩ := h1.step hs hm
    refine ⟨_, h4, ?_⟩
    simp only [cost] at *
    simp only [List.map_append, List.map_cons, List.map_nil, List.sum_append, List.sum_cons,
      List.sum_nil]
    omega

/-- What each operation got. -/
theorem Runs.each (h : Runs S Q p₀ c₀ p c l) {u : Nat} (hw : Within (want S) Q p₀ (c₀ + u))
    (hc : Cuts (want S) Q p₀ c₀) :
    (Within (want S) Q p (c + u) ∧ Cuts (want S) Q p c) ∧
    ∀ e ∈ l, want S e.1 ≤ e.2 + u ∧ (isCut (some e.1) → e.2 = want S e.1) := by
  induction h with
  | start => exact ⟨⟨hw, hc⟩, by simp⟩
  | look _ hm hs ih =>
    obtain ⟨⟨h1, h2⟩, h3⟩ := ih
    refine ⟨⟨(h1.step hs hm).2.mono (by simp [cost]), ?_⟩, h3⟩
    rename_i p p' c l m m' _
    by_cases hp : MayCut p
    · exact (h2.step hs hm hp).2
    · exact cuts_of_not fun h => hp (mayCut_step hs h)
  | @act p p' c l m m' a _ hm hs ih =>
    obtain ⟨⟨h1, h2⟩, h3⟩ := ih
    obtain ⟨h4, h5⟩ := h1.step hs hm
    simp only [cost] at h4 h5
    refine ⟨⟨h5.mono (by omega), ?_⟩, ?_⟩
    · by_cases hp : MayCut p
      · exact (h2.step hs hm hp).2
      · exact cuts_of_not fun h => hp (mayCut_step hs h)
    · intro e he
      rcases List.mem_append.1 he with he | he
      · exact h3 e he
      · cases List.mem_singleton.1 he
        refine ⟨by dsimp only; omega, fun hcut => ?_⟩
        have := (h2.step hs hm (cut_mayCut hs hcut)).1 (.inl hcut)
        simp only [cost] at this
        dsimp only; omega

/-! ## The operations are those of `Verif.Isol` -/

theorem StepA.step {p p' : Prog} {m m' : Store} {a : Option Act} (h : StepA p m a p' m') :
    Step p m p' m' := by
  induction h with
  | get => exact .get
  | insert => exact .insert
  | remove => exact .remove
  | scan => exact .scan
  | clear => exact .clear
  | left _ ih => exact .left ih
  | right _ ih => exact .right ih
  | both => exact .both
  | failLeft => exact .failLeft
  | failRight => exact .failRight
  | panicLeft => exact .panicLeft
  | panicRight => exact .panicRight

theorem step_act {p p' : Prog} {m m' : Store} (h : Step p m p' m') : ∃ a, StepA p m a p' m' := by
  induction h with
  | get => exact ⟨_, .get⟩
  | insert => exact ⟨_, .insert⟩
  | remove => exact ⟨_, .remove⟩
  | scan => exact ⟨_, .scan⟩
  | clear => exact ⟨_, .clear⟩
  | left _ ih => exact ih.imp fun _ => .left
  | right _ ih => exact ih.imp fun _ => .right
  | both => exact ⟨_, .both⟩
  | failLeft => exact ⟨_, .failLeft⟩
  | failRight => exact ⟨_, .failRight⟩
  | panicLeft => exact ⟨_, .panicLeft⟩
  | panicRight => exact ⟨_, .panicRight⟩

end Verif.Reserve
