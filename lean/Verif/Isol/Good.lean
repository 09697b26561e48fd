import Verif.Isol.System

/-!
# Programs whose own futures do not get into each other's way
-/

namespace Verif.Isol

/-! ## What a program may use, whatever it reads -/

def Only (S : Nat → Prop) : Prog → Prop
  | .ret _ => True
  | .get k f => S k ∧ ∀ v, Only S (f v)
  | .insert k _ f => S k ∧ ∀ v, Only S (f v)
  | .remove k f => S k ∧ ∀ v, Only S (f v)
  | .scan lo hi f => (∀ k, lo ≤ k → k < hi → S k) ∧ ∀ l, Only S (f l)
  | .clear lo hi p => (∀ k, lo ≤ k → k < hi → S k) ∧ Only S p
  | .join p q f => Only S p ∧ Only S q ∧ ∀ a b, Only S (f a b)

theorem only_touches {S : Nat → Prop} (p : Prog) : ∀ m, Only S p → ∀ k, (exec p m).log.touches k → S k := by
  induction p with
  | ret o => intro m _ k h; exact absurd h (touches_nil k)
  | get k f ih =>
    intro m h k' hk
    simp only [exec, Result.after, touches_one] at hk
    rcases hk with hk | hk
    · have : k' = k := by omega
      rw [this]; exact h.1
    · exact ih _ m (h.2 _) k' hk
  | insert k v f ih =>
    intro m h k' hk
    simp only [exec, Result.after, touches_one] at hk
    rcases hk with hk | hk
    · have : k' = k := by omega
      rw [this]; exact h.1
    · exact ih _ _ (h.2 _) k' hk
  | remove k f ih =>
    intro m h k' hk
    simp only [exec, Result.after, touches_one] at hk
    rcases hk with hk | hk
    · have : k' = k := by omega
      rw [this]; exact h.1
    · exact ih _ _ (h.2 _) k' hk
  | scan lo hi f ih =>
    intro m h k' hk
    simp only [exec, Result.after, touches_one] at hk
    rcases hk with hk | hk
    · exact h.1 k' hk.1 hk.2
    · exact ih _ _ (h.2 _) k' hk
  | clear lo hi p ih =>
    intro m h k' hk
    simp only [exec, Result.after, touches_one] at hk
    rcases hk with hk | hk
    · exact h.1 k' hk.1 hk.2
    · exact ih _ h.2 k' hk
  | join p q f ihp ihq ihf =>
    intro m h k hk
    rcases exec_join p q f m with ⟨a, b, _, _, he⟩ | ⟨a, _, _, he⟩ | ⟨_, he⟩
    · rw [he] at hk
      simp only [Result.after, touches_append] at hk
      rcases hk with (hk | hk) | hk
      · exact ihp _ h.1 k hk
      · exact ihq _ h.2.1 k hk
      · exact ihf a b _ (h.2.2 a b) k hk
    · rw [he] at hk
      simp only [touches_append] at hk
      rcases hk with hk | hk
      · exact ihp _ h.1 k hk
      · exact ihq _ h.2.1 k hk
    · rw [he] at hk; exact ihp _ h.1 k hk

theorem Only.mono {S S' : Nat → Prop} (hs : ∀ k, S k → S' k) (p : Prog) : Only S p → Only S' p := by
  induction p with
  | ret o => exact fun h => h
  | get k f ih => exact fun h => ⟨hs _ h.1, fun v => ih v (h.2 v)⟩
  | insert k v f ih => exact fun h => ⟨hs _ h.1, fun v => ih v (h.2 v)⟩
  | remove k f ih => exact fun h => ⟨hs _ h.1, fun v => ih v (h.2 v)⟩
  | scan lo hi f ih => exact fun h => ⟨fun k h1 h2 => hs _ (h.1 k h1 h2), fun v => ih v (h.2 v)⟩
  | clear lo hi p ih => exact fun h => ⟨fun k h1 h2 => hs _ (h.1 k h1 h2), ih h.2⟩
  | join p q f ihp ihq ihf => exact fun h => ⟨ihp h.1, ihq h.2.1, fun a b => ihf a b (h.2.2 a b)⟩

/-- It returns no error (it may panic). -/
def NoErr : Prog → Prop
  | .ret o => ∀ e, o ≠ .err e
  | .get _ f => ∀ v, NoErr (f v)
  | .insert _ _ f => ∀ v, NoErr (f v)
  | .remove _ f => ∀ v, NoErr (f v)
  | .scan _ _ f => ∀ l, NoErr (f l)
  | .clear _ _ p => NoErr p
  | .join p q f => NoErr p ∧ NoErr q ∧ ∀ a b, NoErr (f a b)

theorem noErr_exec (p : Prog) : ∀ m, NoErr p → ∀ e, (exec p m).out ≠ .err e := by
  induction p with
  | ret o => exact fun m h => h
  | get k f ih => exact fun m h => ih _ _ (h _)
  | insert k v f ih => exact fun m h => ih _ _ (h _)
  | remove k f ih => exact fun m h => ih _ _ (h _)
  | scan lo hi f ih => exact fun m h => ih _ _ (h _)
  | clear lo hi p ih => exact fun m h => ih _ h
  | join p q f ihp ihq ihf =>
    intro m h e
    rcases exec_join p q f m with ⟨a, b, _, _, he⟩ | ⟨a, _, _, he⟩ | ⟨_, he⟩
    · rw [he]; exact ihf a b _ (h.2.2 a b) e
    · rw [he]; exact ihq _ h.2.1 e
    · rw [he]; exact ihp _ h.1 e

/-- Unless it panics, what it joins does not conflict, and it uses keys in `S` only. -/
def Good (S : Nat → Prop) (p : Prog) (m : Store) : Prop :=
  (exec p m).out ≠ .panic → Tidy p m ∧ ∀ k, (exec p m).log.touches k → S k

variable {S : Nat → Prop} {m : Store}

theorem good_ret {o : Outcome} : Good S (.ret o) m := fun _ => ⟨trivial, fun k h => absurd h (touches_nil k)⟩

theorem key_eq {k k' : Nat} (h : k ≤ k' ∧ k' < k + 1) : k' = k := by
  have h1 : (k : Nat) ≤ k' := h.1
  have h2 : (k' : Nat) < k + 1 := h.2
  exact (by omega : (k' : Nat) = k)

theorem good_get {k : Nat} {f : Option Val → Prog} (hk : S k) (h : Good S (f (m k)) m) :
    Good S (.get k f) m := by
  intro hp
  obtain ⟨h1, h2⟩ := h hp
  refine ⟨h1, fun k' h' => ?_⟩
  simp only [exec, Result.after, touches_one] at h'
  rcases h' with h' | h'
  · rw [key_eq h']; exact hk
  · exact h2 k' h'

theorem good_insert {k : Nat} {v : Val} {f : Option Val → Prog} (hk : S k)
    (h : Good S (f (m k)) (m.set k (some v))) : Good S (.insert k v f) m := by
  intro hp
  obtain ⟨h1, h2⟩ := h hp
  refine ⟨h1, fun k' h' => ?_⟩
  simp only [exec, Result.after, touches_one] at h'
  rcases h' with h' | h'
  · rw [key_eq h']; exact hk
  · exact h2 k' h'

theorem good_remove {k : Nat} {f : Option Val → Prog} (hk : S k)
    (h : Good S (f (m k)) (m.set k none)) : Good S (.remove k f) m := by
  intro hp
  obtain ⟨h1, h2⟩ := h hp
  refine ⟨h1, fun k' h' => ?_⟩
  simp only [exec, Result.after, touches_one] at h'
  rcases h' with h' | h'
  · rw [key_eq h']; exact hk
  · exact h2 k' h'

theorem good_scan {lo hi : Nat} {f : List (Nat × Val) → Prog} (hk : ∀ k, lo ≤ k → k < hi → S k)
    (h : Good S (f (m.items lo hi)) m) : Good S (.scan lo hi f) m := by
  intro hp
  obtain ⟨h1, h2⟩ := h hp
  refine ⟨h1, fun k' h' => ?_⟩
  simp only [exec, Result.after, touches_one] at h'
  rcases h' with h' | h'
  · exact hk k' h'.1 h'.2
  · exact h2 k' h'

theorem good_clear {lo hi : Nat} {p : Prog} (hk : ∀ k, lo ≤ k → k < hi → S k)
    (h : Good S p (m.clear lo hi)) : Good S (.clear lo hi p) m := by
  intro hp
  obtain ⟨h1, h2⟩ := h hp
  refine ⟨h1, fun k' h' => ?_⟩
  simp only [exec, Result.after, touches_one] at h'
  rcases h' with h' | h'
  · exact hk k' h'.1 h'.2
  · exact h2 k' h'

/-- A join of two futures that use different keys, whatever they read. -/
theorem good_join {S1 S2 : Nat → Prop} {p q : Prog} {f : Res → Res → Prog}
    (o1 : Only S1 p) (o2 : Only S2 q) (dj : ∀ k, S1 k → ¬ S2 k) (i1 : ∀ k, S1 k → S k)
    (i2 : ∀ k, S2 k → S k) (e1 : ∀ e, (exec p m).out ≠ .err e) (e2 : ∀ e, (exec q m).out ≠ .err e)
    (g1 : Good S p m) (g2 : Good S q m) (gf : ∀ a b m', Good S (f a b) m') :
    Good S (.join p q f) m := by
  have nc : NoConflict (exec p m).log (exec q m).log := fun k =>
    ⟨fun w t => dj k (only_touches p m o1 k w.touches) (only_touches q m o2 k t),
     fun w t => dj k (only_touches p m o1 k t) (only_touches q m o2 k w.touches)⟩
  have ha := exec_after nc
  intro hp
  rcases exec_join p q f m with ⟨a, b, h1, h2, he⟩ | ⟨a, h1, h2, he⟩ | ⟨h1, he⟩
  · rw [he] at hp ⊢
    obtain ⟨t1, _⟩ := g1 (by rw [h1]; simp)
    have h2' := ha.1.symm.trans h2
    obtain ⟨t2, _⟩ := g2 (by rw [h2']; simp)
    obtain ⟨t3, s3⟩ := gf a b _ hp
    refine ⟨⟨t1, t2, nc, a, b, h1, h2', t3⟩, fun k hk => ?_⟩
    simp only [Result.after, touches_append] at hk
    rcases hk with (hk | hk) | hk
    · exact i1 k (only_touches p m o1 k hk)
    · exact i2 k (only_touches q _ o2 k hk)
    · exact s3 k hk
  · rw [he] at hp
    simp only at hp
    rw [ha.1] at hp h2
    cases ho : (exec q m).out with
    | ok b => exact absurd ho (h2 b)
    | err e => exact absurd ho (e2 e)
    | panic => exact absurd ho hp
  · rw [he] at hp
    cases ho : (exec p m).out with
    | ok b => exact absurd ho (h1 b)
    | err e => exact absurd ho (e1 e)
    | panic => exact absurd ho hp

/-- Nothing joined. -/
def Flat : Prog → Prop
  | .ret _ => True
  | .get _ f => ∀ v, Flat (f v)
  | .insert _ _ f => ∀ v, Flat (f v)
  | .remove _ f => ∀ v, Flat (f v)
  | .scan _ _ f => ∀ l, Flat (f l)
  | .clear _ _ p => Flat p
  | .join _ _ _ => False

theorem flat_tidy (p : Prog) : ∀ m, Flat p → Tidy p m := by
  induction p with
  | ret o => exact fun _ _ => trivial
  | get k f ih => exact fun m h => ih _ _ (h _)
  | insert k v f ih => exact fun m h => ih _ _ (h _)
  | remove k f ih => exact fun m h => ih _ _ (h _)
  | scan lo hi f ih => exact fun m h => ih _ _ (h _)
  | clear lo hi p ih => exact fun m h => ih _ h
  | join p q f _ _ _ => exact fun _ h => h.elim

theorem good_flat {p : Prog} (h : Flat p) (o : Only S p) : Good S p m :=
  fun _ => ⟨flat_tidy p m h, only_touches p m o⟩

theorem Good.mono {S' : Nat → Prop} {p : Prog} (h : Good S p m) (hs : ∀ k, S k → S' k) : Good S' p m :=
  fun hp => ⟨(h hp).1, fun k hk => hs k ((h hp).2 k hk)⟩

/-- A future for a join: whatever it reads it uses keys in `S` only and returns no error. -/
structure Part (S : Nat → Prop) (p : Prog) : Prop where
  only : Only S p
  noErr : NoErr p
  good : ∀ m, Good S p m

theorem part_ok {r : Res} : Part S (.ok r) := ⟨trivial, fun e => by simp, fun _ => good_ret⟩
theorem part_panic : Part S .panic := ⟨trivial, fun e => by simp, fun _ => good_ret⟩

theorem part_flat {p : Prog} (h : Flat p) (o : Only S p) (e : NoErr p) : Part S p :=
  ⟨o, e, fun _ => good_flat h o⟩

theorem part_get {k : Nat} {f : Option Val → Prog} (hk : S k) (h : ∀ v, Part S (f v)) :
    Part S (.get k f) :=
  ⟨⟨hk, fun v => (h v).only⟩, fun v => (h v).noErr, fun m => good_get hk ((h _).good _)⟩

theorem part_insert {k : Nat} {v : Val} {f : Option Val → Prog} (hk : S k) (h : ∀ v, Part S (f v)) :
    Part S (.insert k v f) :=
  ⟨⟨hk, fun v => (h v).only⟩, fun v => (h v).noErr, fun m => good_insert hk ((h _).good _)⟩

theorem part_remove {k : Nat} {f : Option Val → Prog} (hk : S k) (h : ∀ v, Part S (f v)) :
    Part S (.remove k f) :=
  ⟨⟨hk, fun v => (h v).only⟩, fun v => (h v).noErr, fun m => good_remove hk ((h _).good _)⟩

theorem part_scan {lo hi : Nat} {f : List (Nat × Val) → Prog} (hk : ∀ k, lo ≤ k → k < hi → S k)
    (h : ∀ l, Part S (f l)) : Part S (.scan lo hi f) :=
  ⟨⟨hk, fun v => (h v).only⟩, fun v => (h v).noErr, fun m => good_scan hk ((h _).good _)⟩

theorem part_clear {lo hi : Nat} {p : Prog} (hk : ∀ k, lo ≤ k → k < hi → S k) (h : Part S p) :
    Part S (.clear lo hi p) :=
  ⟨⟨hk, h.only⟩, h.noErr, fun m => good_clear hk (h.good _)⟩

theorem part_join {S1 S2 : Nat → Prop} {p q : Prog} {f : Res → Res → Prog} (h1 : Part S1 p)
    (h2 : Part S2 q) (dj : ∀ k, S1 k → ¬ S2 k) (i1 : ∀ k, S1 k → S k) (i2 : ∀ k, S2 k → S k)
    (hf : ∀ a b, Part S (f a b)) : Part S (.join p q f) :=
  ⟨⟨h1.only.mono i1, h2.only.mono i2, fun a b => (hf a b).only⟩,
    ⟨h1.noErr, h2.noErr, fun a b => (hf a b).noErr⟩,
    fun m => good_join h1.only h2.only dj i1 i2 (noErr_exec p m h1.noErr) (noErr_exec q m h2.noErr)
      ((h1.good m).mono i1) ((h2.good m).mono i2) fun a b m' => (hf a b).good m'⟩

/-- A join of two parts inside a program. -/
theorem good_join_parts {S1 S2 : Nat → Prop} {p q : Prog} {f : Res → Res → Prog} (h1 : Part S1 p)
    (h2 : Part S2 q) (dj : ∀ k, S1 k → ¬ S2 k) (i1 : ∀ k, S1 k → S k) (i2 : ∀ k, S2 k → S k)
    (hf : ∀ a b m', Good S (f a b) m') : Good S (.join p q f) m :=
  good_join h1.only h2.only dj i1 i2 (noErr_exec p m h1.noErr) (noErr_exec q m h2.noErr)
    ((h1.good m).mono i1) ((h2.good m).mono i2) hf

end Verif.Isol
