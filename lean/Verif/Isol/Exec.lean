import Verif.Isol.Spec

/-!
# Programs that use different keys do not disturb each other
-/

namespace Verif.Isol

theorem touches_nil (k : Nat) : ¬ Log.touches [] k := fun ⟨_, h, _⟩ => by cases h
theorem writes_nil (k : Nat) : ¬ Log.writes [] k := fun ⟨_, h, _⟩ => by cases h

theorem touches_append {a b : Log} {k : Nat} :
    Log.touches (a ++ b) k ↔ a.touches k ∨ b.touches k := by
  constructor
  · rintro ⟨x, hx, h⟩
    rcases List.mem_append.1 hx with hx | hx
    · exact .inl ⟨x, hx, h⟩
    · exact .inr ⟨x, hx, h⟩
  · rintro (⟨x, hx, h⟩ | ⟨x, hx, h⟩)
    · exact ⟨x, List.mem_append_left _ hx, h⟩
    · exact ⟨x, List.mem_append_right _ hx, h⟩

theorem writes_append {a b : Log} {k : Nat} :
    Log.writes (a ++ b) k ↔ a.writes k ∨ b.writes k := by
  constructor
  · rintro ⟨x, hx, h⟩
    rcases List.mem_append.1 hx with hx | hx
    · exact .inl ⟨x, hx, h⟩
    · exact .inr ⟨x, hx, h⟩
  · rintro (⟨x, hx, h⟩ | ⟨x, hx, h⟩)
    · exact ⟨x, List.mem_append_left _ hx, h⟩
    · exact ⟨x, List.mem_append_right _ hx, h⟩

theorem touches_one {a : Acc} {l : Log} {k : Nat} :
    Log.touches ([a] ++ l) k ↔ (a.lo ≤ k ∧ k < a.hi) ∨ l.touches k := by
  rw [touches_append]
  simp [Log.touches]

theorem writes_one {a : Acc} {l : Log} {k : Nat} :
    Log.writes ([a] ++ l) k ↔ (a.lo ≤ k ∧ k < a.hi ∧ a.write = true) ∨ l.writes k := by
  rw [writes_append]
  simp [Log.writes]

theorem Log.writes.touches {l : Log} {k : Nat} (h : l.writes k) : l.touches k :=
  let ⟨a, ha, h1, h2, _⟩ := h
  ⟨a, ha, h1, h2⟩

/-- The result of a join, by cases. -/
theorem exec_join (p q : Prog) (f : Res → Res → Prog) (m : Store) :
    (∃ a b, (exec p m).out = .ok a ∧ (exec q (exec p m).store).out = .ok b ∧
      exec (.join p q f) m = (exec (f a b) (exec q (exec p m).store).store).after
        ((exec p m).log ++ (exec q (exec p m).store).log)) ∨
    (∃ a, (exec p m).out = .ok a ∧ (∀ b, (exec q (exec p m).store).out ≠ .ok b) ∧
      exec (.join p q f) m = ⟨(exec q (exec p m).store).out, (exec q (exec p m).store).store,
        (exec p m).log ++ (exec q (exec p m).store).log⟩) ∨
    ((∀ a, (exec p m).out ≠ .ok a) ∧ exec (.join p q f) m = exec p m) := by
  simp only [exec]
  cases hp : (exec p m).out with
  | ok a =>
    cases hq : (exec q (exec p m).store).out with
    | ok b => exact .inl ⟨a, b, rfl, rfl, rfl⟩
    | err e => exact .inr (.inl ⟨a, rfl, by simp, rfl⟩)
    | panic => exact .inr (.inl ⟨a, rfl, by simp, rfl⟩)
  | err e => exact .inr (.inr ⟨by simp, by cases h : exec p m; simp_all⟩)
  | panic => exact .inr (.inr ⟨by simp, by cases h : exec p m; simp_all⟩)

theorem exec_join_ok {p q : Prog} {f : Res → Res → Prog} {m : Store} {a b : Res}
    (hp : (exec p m).out = .ok a) (hq : (exec q (exec p m).store).out = .ok b) :
    exec (.join p q f) m = (exec (f a b) (exec q (exec p m).store).store).after
      ((exec p m).log ++ (exec q (exec p m).store).log) := by
  simp only [exec, hp, hq]

/-- What is not written stays. -/
theorem exec_unwritten (p : Prog) : ∀ (m : Store) (k : Nat), ¬ (exec p m).log.writes k →
    (exec p m).store k = m k := by
  induction p with
  | ret o => intro m k _; rfl
  | get k f ih =>
    intro m k' h
    simp only [exec, Result.after, writes_one, not_or] at h ⊢
    exact ih _ m k' h.2
  | insert k v f ih =>
    intro m k' h
    simp only [exec, Result.after, writes_one, not_or] at h ⊢
    rw [ih _ _ k' h.2]
    have : k' ≠ k := by intro hk; subst hk; exact h.1 ⟨Nat.le_refl _, Nat.lt_succ_self _, by simp⟩
    simp [Store.set, this]
  | remove k f ih =>
    intro m k' h
    simp only [exec, Result.after, writes_one, not_or] at h ⊢
    rw [ih _ _ k' h.2]
    have : k' ≠ k := by intro hk; subst hk; exact h.1 ⟨Nat.le_refl _, Nat.lt_succ_self _, by simp⟩
    simp [Store.set, this]
  | scan lo hi f ih =>
    intro m k' h
    simp only [exec, Result.after, writes_one, not_or] at h ⊢
    exact ih _ m k' h.2
  | clear lo hi p ih =>
    intro m k' h
    simp only [exec, Result.after, writes_one, not_or] at h ⊢
    rw [ih _ k' h.2]
    have : ¬ (lo ≤ k' ∧ k' < hi) := by intro hk; exact h.1 ⟨hk.1, hk.2, by simp⟩
    simp [Store.clear, this]
  | join p q f ihp ihq ihf =>
    intro m k h
    rcases exec_join p q f m with ⟨a, b, _, _, he⟩ | ⟨a, _, _, he⟩ | ⟨_, he⟩
    · rw [he] at h ⊢
      simp only [Result.after, writes_append, not_or] at h ⊢
      rw [ihf a b _ k h.2, ihq _ k h.1.2, ihp _ k h.1.1]
    · rw [he] at h ⊢
      simp only [writes_append, not_or] at h ⊢
      rw [ihq _ k h.2, ihp _ k h.1]
    · rw [he] at h ⊢; exact ihp m k h

def Agree (A : Nat → Prop) (m m' : Store) : Prop := ∀ k, A k → m k = m' k

theorem Agree.items {A : Nat → Prop} {m m' : Store} (h : Agree A m m') {lo hi : Nat}
    (hA : ∀ k, lo ≤ k → k < hi → A k) : m.items lo hi = m'.items lo hi := by
  unfold Store.items
  have : ∀ l : List Nat, (∀ k ∈ l, m k = m' k) →
      l.filterMap (fun k => (m k).map (Prod.mk k)) = l.filterMap (fun k => (m' k).map (Prod.mk k)) := by
    intro l hl
    induction l with
    | nil => rfl
    | cons k l ih =>
      rw [List.filterMap_cons, List.filterMap_cons, hl k (by simp),
        ih (fun k' hk' => hl k' (by simp [hk']))]
  apply this
  intro k hk
  rw [List.mem_range'_1] at hk
  obtain ⟨h1, h2⟩ := hk
  have h3 : (k : Nat) < hi := by
    have : (lo : Nat) ≤ k := h1
    have : (k : Nat) < lo + (hi - lo) := h2
    omega
  exact h k (hA k h1 h3)

theorem agree_set {A : Nat → Prop} {m m' : Store} (h : Agree A m m') {k : Nat} {v : Option Val} :
    Agree A (m.set k v) (m'.set k v) := by
  intro x hx
  unfold Store.set
  split
  · rfl
  · exact h x hx

theorem agree_clear {A : Nat → Prop} {m m' : Store} (h : Agree A m m') {lo hi : Nat} :
    Agree A (m.clear lo hi) (m'.clear lo hi) := by
  intro x hx
  unfold Store.clear
  split
  · rfl
  · exact h x hx

/-- A program does the same on trees that agree on what it uses. -/
theorem exec_frame (p : Prog) : ∀ {A : Nat → Prop} {m m' : Store},
    (∀ k, (exec p m).log.touches k → A k) → Agree A m m' →
    (exec p m').out = (exec p m).out ∧ (exec p m').log = (exec p m).log ∧
      Agree A (exec p m).store (exec p m').store := by
  induction p with
  | ret o => intro A m m' _ h; exact ⟨rfl, rfl, h⟩
  | get k f ih =>
    intro A m m' hA h
    simp only [exec, Result.after] at hA ⊢
    rw [← h k (hA k (by rw [touches_one]; left; simp))]
    have := ih (m k) (fun k' hk' => hA k' (by rw [touches_one]; exact .inr hk')) h
    exact ⟨this.1, by rw [this.2.1], this.2.2⟩
  | insert k v f ih =>
    intro A m m' hA h
    simp only [exec, Result.after] at hA ⊢
    rw [← h k (hA k (by rw [touches_one]; left; simp))]
    have := ih (m k) (m := m.set k (some v)) (m' := m'.set k (some v))
      (fun k' hk' => hA k' (by rw [touches_one]; exact .inr hk'))
      (fun k' hk' => by exact agree_set h k' hk')
    exact ⟨this.1, by rw [this.2.1], this.2.2⟩
  | remove k f ih =>
    intro A m m' hA h
    simp only [exec, Result.after] at hA ⊢
    rw [← h k (hA k (by rw [touches_one]; left; simp))]
    have := ih (m k) (m := m.set k none) (m' := m'.set k none)
      (fun k' hk' => hA k' (by rw [touches_one]; exact .inr hk'))
      (fun k' hk' => by exact agree_set h k' hk')
    exact ⟨this.1, by rw [this.2.1], this.2.2⟩
  | scan lo hi f ih =>
    intro A m m' hA h
    simp only [exec, Result.after] at hA ⊢
    rw [← h.items (lo := lo) (hi := hi) fun k h1 h2 => hA k (by rw [touches_one]; exact .inl ⟨h1, h2⟩)]
    have := ih (m.items lo hi) (fun k' hk' => hA k' (by rw [touches_one]; exact .inr hk')) h
    exact ⟨this.1, by rw [this.2.1], this.2.2⟩
  | clear lo hi p ih =>
    intro A m m' hA h
    simp only [exec, Result.after] at hA ⊢
    have := ih (m := m.clear lo hi) (m' := m'.clear lo hi)
      (fun k' hk' => hA k' (by rw [touches_one]; exact .inr hk'))
      (fun k' hk' => by exact agree_clear h k' hk')
    exact ⟨this.1, by rw [this.2.1], this.2.2⟩
  | join p q f ihp ihq ihf =>
    intro A m m' hA h
    rcases exec_join p q f m with ⟨a, b, hp, hq, he⟩ | ⟨a, hp, hq, he⟩ | ⟨hp, he⟩
    · rw [he] at hA ⊢
      simp only [Result.after, touches_append] at hA
      obtain ⟨p1, p2, p3⟩ := ihp (fun k hk => hA k (.inl (.inl hk))) h
      obtain ⟨q1, q2, q3⟩ := ihq (fun k hk => hA k (.inl (.inr hk))) p3
      obtain ⟨f1, f2, f3⟩ := ihf a b (fun k hk => hA k (.inr hk)) q3
      rw [exec_join_ok (p1.trans hp) (q1.trans hq)]
      simp only [Result.after]
      exact ⟨f1, by rw [p2, q2, f2], f3⟩
    · rw [he] at hA ⊢
      simp only [touches_append] at hA
      obtain ⟨p1, p2, p3⟩ := ihp (fun k hk => hA k (.inl hk)) h
      obtain ⟨q1, q2, q3⟩ := ihq (fun k hk => hA k (.inr hk)) p3
      rcases exec_join p q f m' with ⟨_, b, _, hb, _⟩ | ⟨_, _, _, he'⟩ | ⟨hp', _⟩
      · rw [q1] at hb; exact absurd hb (hq b)
      · rw [he']; exact ⟨q1, by simp only; rw [p2, q2], q3⟩
      · rw [p1] at hp'; exact absurd hp (hp' a)
    · rw [he] at hA ⊢
      obtain ⟨p1, p2, p3⟩ := ihp hA h
      rcases exec_join p q f m' with ⟨a, _, ha, _, _⟩ | ⟨a, ha, _, _⟩ | ⟨_, he'⟩
      · rw [p1] at ha; exact absurd ha (hp a)
      · rw [p1] at ha; exact absurd ha (hp a)
      · rw [he']; exact ⟨p1, p2, p3⟩

/-- No key is used by both and written by one. -/
def NoConflict (a b : Log) : Prop :=
  ∀ k, (a.writes k → ¬ b.touches k) ∧ (b.writes k → ¬ a.touches k)

theorem NoConflict.symm {a b : Log} (h : NoConflict a b) : NoConflict b a :=
  fun k => ⟨(h k).2, (h k).1⟩

theorem NoConflict.sub {a b a' b' : Log} (h : NoConflict a b) (h1 : ∀ k, a'.touches k → a.touches k)
    (h2 : ∀ k, a'.writes k → a.writes k) (h3 : ∀ k, b'.touches k → b.touches k)
    (h4 : ∀ k, b'.writes k → b.writes k) : NoConflict a' b' :=
  fun k => ⟨fun w t => (h k).1 (h2 k w) (h3 k t), fun w t => (h k).2 (h4 k w) (h1 k t)⟩

/-- The futures that a program joins, if it runs alone, succeed and do not conflict. -/
def Tidy : Prog → Store → Prop
  | .ret _, _ => True
  | .get k f, m => Tidy (f (m k)) m
  | .insert k v f, m => Tidy (f (m k)) (m.set k (some v))
  | .remove k f, m => Tidy (f (m k)) (m.set k none)
  | .scan lo hi f, m => Tidy (f (m.items lo hi)) m
  | .clear lo hi p, m => Tidy p (m.clear lo hi)
  | .join p q f, m => Tidy p m ∧ Tidy q m ∧ NoConflict (exec p m).log (exec q m).log ∧
      ∃ a b, (exec p m).out = .ok a ∧ (exec q m).out = .ok b ∧
        Tidy (f a b) (exec q (exec p m).store).store

/-- After a program that does not conflict with it, another one does the same as before. -/
theorem exec_after {p q : Prog} {m : Store} (h : NoConflict (exec p m).log (exec q m).log) :
    (exec q (exec p m).store).out = (exec q m).out ∧
    (exec q (exec p m).store).log = (exec q m).log ∧
    (∀ k, ¬ (exec p m).log.writes k → (exec q m).store k = (exec q (exec p m).store).store k) := by
  have := exec_frame q (A := fun k => ¬ (exec p m).log.writes k) (m := m) (m' := (exec p m).store)
    (fun k hk hw => (h k).1 hw hk) (fun k hk => (exec_unwritten p m k hk).symm)
  exact ⟨this.1, this.2.1, this.2.2⟩

theorem tidy_frame (p : Prog) : ∀ {A : Nat → Prop} {m m' : Store},
    (∀ k, (exec p m).log.touches k → A k) → Agree A m m' → Tidy p m → Tidy p m' := by
  induction p with
  | ret o => intro A m m' _ _ _; trivial
  | get k f ih =>
    intro A m m' hA h ht
    simp only [exec, Result.after, Tidy] at hA ht ⊢
    rw [← h k (hA k (by rw [touches_one]; left; simp))]
    exact ih (m k) (fun k' hk' => hA k' (by rw [touches_one]; exact .inr hk')) h ht
  | insert k v f ih =>
    intro A m m' hA h ht
    simp only [exec, Result.after, Tidy] at hA ht ⊢
    rw [← h k (hA k (by rw [touches_one]; left; simp))]
    exact ih (m k) (m := m.set k (some v)) (m' := m'.set k (some v))
      (fun k' hk' => hA k' (by rw [touches_one]; exact .inr hk'))
      (fun k' hk' => by exact agree_set h k' hk') ht
  | remove k f ih =>
    intro A m m' hA h ht
    simp only [exec, Result.after, Tidy] at hA ht ⊢
    rw [← h k (hA k (by rw [touches_one]; left; simp))]
    exact ih (m k) (m := m.set k none) (m' := m'.set k none)
      (fun k' hk' => hA k' (by rw [touches_one]; exact .inr hk'))
      (fun k' hk' => by exact agree_set h k' hk') ht
  | scan lo hi f ih =>
    intro A m m' hA h ht
    simp only [exec, Result.after, Tidy] at hA ht ⊢
    rw [← h.items (lo := lo) (hi := hi) fun k h1 h2 => hA k (by rw [touches_one]; exact .inl ⟨h1, h2⟩)]
    exact ih (m.items lo hi) (fun k' hk' => hA k' (by rw [touches_one]; exact .inr hk')) h ht
  | clear lo hi p ih =>
    intro A m m' hA h ht
    simp only [exec, Result.after, Tidy] at hA ht ⊢
    exact ih (m := m.clear lo hi) (m' := m'.clear lo hi)
      (fun k' hk' => hA k' (by rw [touches_one]; exact .inr hk'))
      (fun k' hk' => by exact agree_clear h k' hk') ht
  | join p q f ihp ihq ihf =>
    intro A m m' hA h ht
    obtain ⟨hp, hq, hc, a, b, ha, hb, hf⟩ := ht
    have hqs := exec_after hc
    rw [exec_join_ok ha (hqs.1.trans hb)] at hA
    simp only [Result.after, touches_append] at hA
    have hAp : ∀ k, (exec p m).log.touches k → A k := fun k hk => hA k (.inl (.inl hk))
    have hAq : ∀ k, (exec q m).log.touches k → A k := fun k hk => hA k (.inl (.inr (by rw [hqs.2.1]; exact hk)))
    obtain ⟨p1, p2, p3⟩ := exec_frame p hAp h
    obtain ⟨q1, q2, _⟩ := exec_frame q hAq h
    obtain ⟨_, _, r3⟩ := exec_frame q (m := (exec p m).store) (fun k hk => hA k (.inl (.inr hk))) p3
    exact ⟨ihp hAp h hp, ihq hAq h hq, by rw [p2, q2]; exact hc, a, b, p1.trans ha, q1.trans hb,
      ihf a b (fun k hk => hA k (.inr hk)) r3 hf⟩

/-- What one step of a program, alone, leaves to do. -/
structure Keeps (q : Prog) (m : Store) (q' : Prog) (m' : Store) : Prop where
  out : (exec q' m').out = (exec q m).out
  store : (exec q' m').store = (exec q m).store
  touches : ∀ k, (exec q' m').log.touches k → (exec q m).log.touches k
  writes : ∀ k, (exec q' m').log.writes k → (exec q m).log.writes k
  tidy : Tidy q' m'
  unwritten : ∀ k, ¬ (exec q m).log.writes k → m' k = m k

theorem step_keeps {q q' : Prog} {m m' : Store} (h : Step q m q' m') : Tidy q m → Keeps q m q' m' := by
  induction h with
  | get =>
    intro ht
    refine ⟨rfl, rfl, ?_, ?_, ht, fun _ _ => rfl⟩ <;> intro k hk <;>
      simp only [exec, Result.after, touches_one, writes_one] <;> exact .inr hk
  | @insert k v f m =>
    intro ht
    refine ⟨rfl, rfl, ?_, ?_, ht, ?_⟩
    · intro k hk; simp only [exec, Result.after, touches_one]; exact .inr hk
    · intro k hk; simp only [exec, Result.after, writes_one]; exact .inr hk
    · intro k' hk
      simp only [exec, Result.after, writes_one, not_or] at hk
      have : k' ≠ k := by intro he; subst he; exact hk.1 ⟨Nat.le_refl _, Nat.lt_succ_self _, by simp⟩
      simp [Store.set, this]
  | @remove k f m =>
    intro ht
    refine ⟨rfl, rfl, ?_, ?_, ht, ?_⟩
    · intro k hk; simp only [exec, Result.after, touches_one]; exact .inr hk
    · intro k hk; simp only [exec, Result.after, writes_one]; exact .inr hk
    · intro k' hk
      simp only [exec, Result.after, writes_one, not_or] at hk
      have : k' ≠ k := by intro he; subst he; exact hk.1 ⟨Nat.le_refl _, Nat.lt_succ_self _, by simp⟩
      simp [Store.set, this]
  | scan =>
    intro ht
    refine ⟨rfl, rfl, ?_, ?_, ht, fun _ _ => rfl⟩ <;> intro k hk <;>
      simp only [exec, Result.after, touches_one, writes_one] <;> exact .inr hk
  | @clear lo hi p m =>
    intro ht
    refine ⟨rfl, rfl, ?_, ?_, ht, ?_⟩
    · intro k hk; simp only [exec, Result.after, touches_one]; exact .inr hk
    · intro k hk; simp only [exec, Result.after, writes_one]; exact .inr hk
    · intro k' hk
      simp only [exec, Result.after, writes_one, not_or] at hk
      have : ¬ (lo ≤ k' ∧ k' < hi) := by intro he; apply hk.1; exact ⟨he.1, he.2, by simp⟩
      simp [Store.clear, this]
  | @left p p' q f m m' _ ih =>
    rintro ⟨hp, hq, hc, a, b, ha, hb, hf⟩
    have k := ih hp
    have hag : Agree (fun k => (exec q m).log.touches k) m m' := fun x hx =>
      (k.unwritten x fun hw => (hc x).1 hw hx).symm
    obtain ⟨q1, q2, _⟩ := exec_frame q (fun _ h => h) hag
    have hq' := tidy_frame q (fun _ h => h) hag hq
    have hqs := exec_after hc
    have e1 := exec_join_ok (f := f) ha (hqs.1.trans hb)
    have e2 : exec (.join p' q f) m' = _ :=
      exec_join_ok (k.out.trans ha) (by rw [k.store]; exact hqs.1.trans hb)
    have hc' : NoConflict (exec p' m').log (exec q m').log :=
      hc.sub k.touches k.writes (by rw [q2]; exact fun _ h => h) (by rw [q2]; exact fun _ h => h)
    refine ⟨by rw [e1, e2, k.store]; rfl, by rw [e1, e2, k.store]; rfl, ?_, ?_,
      ⟨k.tidy, hq', hc', a, b, k.out.trans ha, q1.trans hb, by rw [k.store]; exact hf⟩, ?_⟩
    · intro x hx
      rw [e2, k.store] at hx; rw [e1]
      simp only [Result.after, touches_append] at hx ⊢
      rcases hx with (hx | hx) | hx
      · exact .inl (.inl (k.touches x hx))
      · exact .inl (.inr hx)
      · exact .inr hx
    · intro x hx
      rw [e2, k.store] at hx; rw [e1]
      simp only [Result.after, writes_append] at hx ⊢
      rcases hx with (hx | hx) | hx
      · exact .inl (.inl (k.writes x hx))
      · exact .inl (.inr hx)
      · exact .inr hx
    · intro x hx
      rw [e1] at hx
      simp only [Result.after, writes_append, not_or] at hx
      exact k.unwritten x hx.1.1
  | @right p q q' f m m' _ ih =>
    rintro ⟨hp, hq, hc, a, b, ha, hb, hf⟩
    have k := ih hq
    have hag : Agree (fun k => (exec p m).log.touches k) m m' := fun x hx =>
      (k.unwritten x fun hw => (hc x).2 hw hx).symm
    obtain ⟨p1, p2, p3⟩ := exec_frame p (fun _ h => h) hag
    have hp' := tidy_frame p (fun _ h => h) hag hp
    have hc' : NoConflict (exec p m').log (exec q' m').log :=
      hc.sub (by rw [p2]; exact fun _ h => h) (by rw [p2]; exact fun _ h => h) k.touches k.writes
    have hqs := exec_after hc
    have hqs' := exec_after hc'
    have e1 := exec_join_ok (f := f) ha (hqs.1.trans hb)
    have e2 := exec_join_ok (f := f) (p1.trans ha) (hqs'.1.trans (k.out.trans hb))
    have hst : (exec q' (exec p m').store).store = (exec q (exec p m).store).store := by
      funext x
      by_cases hw : (exec p m).log.writes x
      · rw [exec_unwritten q' _ x (by rw [hqs'.2.1]; exact fun h => (hc x).1 hw (k.touches x h.touches)),
          exec_unwritten q _ x (by rw [hqs.2.1]; exact fun h => (hc x).1 hw h.touches),
          p3 x hw.touches]
      · rw [← hqs.2.2 x hw, ← hqs'.2.2 x (by rw [p2]; exact hw), k.store]
    refine ⟨by rw [e1, e2, hst]; rfl, by rw [e1, e2, hst]; rfl, ?_, ?_,
      ⟨hp', k.tidy, hc', a, b, p1.trans ha, k.out.trans hb, by rw [hst]; exact hf⟩, ?_⟩
    · intro x hx
      rw [e2, hst, hqs'.2.1, p2] at hx; rw [e1, hqs.2.1]
      simp only [Result.after, touches_append] at hx ⊢
      rcases hx with (hx | hx) | hx
      · exact .inl (.inl hx)
      · exact .inl (.inr (k.touches x hx))
      · exact .inr hx
    · intro x hx
      rw [e2, hst, hqs'.2.1, p2] at hx; rw [e1, hqs.2.1]
      simp only [Result.after, writes_append] at hx ⊢
      rcases hx with (hx | hx) | hx
      · exact .inl (.inl hx)
      · exact .inl (.inr (k.writes x hx))
      · exact .inr hx
    · intro x hx
      rw [e1, hqs.2.1] at hx
      simp only [Result.after, writes_append, not_or] at hx
      exact k.unwritten x hx.1.2
  | @both a b f m =>
    rintro ⟨_, _, _, a', b', ha, hb, hf⟩
    simp only [exec, Outcome.ok.injEq] at ha hb
    subst ha; subst hb
    refine ⟨?_, ?_, ?_, ?_, hf, fun _ _ => rfl⟩ <;> simp [exec, Result.after]
  | failLeft => rintro ⟨_, _, _, a, b, ha, hb, _⟩; simp [exec] at ha
  | failRight => rintro ⟨_, _, _, a, b, ha, hb, _⟩; simp [exec] at hb
  | panicLeft => rintro ⟨_, _, _, a, b, ha, hb, _⟩; simp [exec] at ha
  | panicRight => rintro ⟨_, _, _, a, b, ha, hb, _⟩; simp [exec] at hb

end Verif.Isol
