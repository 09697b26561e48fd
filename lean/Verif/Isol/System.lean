import Verif.Isol.Exec

/-!
# Any number of programs
-/

namespace Verif.Isol

variable {ι : Type} [DecidableEq ι]

/-- What holds at any time of a run of programs that do not conflict. -/
structure Inv (ps : ι → Prog) (m : Store) (qs : ι → Prog) (m' : Store) : Prop where
  out : ∀ i, (exec (qs i) m').out = (exec (ps i) m).out
  touches : ∀ i k, (exec (qs i) m').log.touches k → (exec (ps i) m).log.touches k
  writes : ∀ i k, (exec (qs i) m').log.writes k → (exec (ps i) m).log.writes k
  tidy : ∀ i, Tidy (qs i) m'
  store : ∀ i k, (exec (ps i) m).log.writes k → (exec (qs i) m').store k = (exec (ps i) m).store k
  unwritten : ∀ k, (∀ i, ¬ (exec (ps i) m).log.writes k) → m' k = m k

theorem run_inv {ps qs : ι → Prog} {m m' : Store} (h : Run ps m qs m') (ht : ∀ i, Tidy (ps i) m)
    (hc : ∀ i j, i ≠ j → NoConflict (exec (ps i) m).log (exec (ps j) m).log) : Inv ps m qs m' := by
  induction h with
  | refl => exact ⟨fun _ => rfl, fun _ _ h => h, fun _ _ h => h, ht, fun _ _ _ => rfl, fun _ _ => rfl⟩
  | @step qs m' i q m'' hr hs ih =>
    have inv := ih
    have kp := step_keeps hs (inv.tidy i)
    have other : ∀ j, j ≠ i → _ := fun j hj =>
      exec_frame (qs j) (A := fun k => ¬ (exec (ps i) _).log.writes k) (m := m') (m' := m'')
        (fun k hk hw => (hc i j (Ne.symm hj) k).1 hw (inv.touches j k hk))
        (fun k hk => (kp.unwritten k fun hw => hk (inv.writes i k hw)).symm)
    constructor
    · intro j
      by_cases hj : j = i
      · subst hj; simp only [if_true]; exact kp.out.trans (inv.out j)
      · simp only [if_neg hj]; exact (other j hj).1.trans (inv.out j)
    · intro j k hk
      by_cases hj : j = i
      · subst hj; simp only [if_true] at hk; exact inv.touches j k (kp.touches k hk)
      · simp only [if_neg hj] at hk; rw [(other j hj).2.1] at hk; exact inv.touches j k hk
    · intro j k hk
      by_cases hj : j = i
      · subst hj; simp only [if_true] at hk; exact inv.writes j k (kp.writes k hk)
      · simp only [if_neg hj] at hk; rw [(other j hj).2.1] at hk; exact inv.writes j k hk
    · intro j
      by_cases hj : j = i
      · subst hj; simp only [if_true]; exact kp.tidy
      · simp only [if_neg hj]
        exact tidy_frame (qs j) (A := fun k => ¬ (exec (ps i) _).log.writes k)
          (fun k hk hw => (hc i j (Ne.symm hj) k).1 hw (inv.touches j k hk))
          (fun k hk => (kp.unwritten k fun hw => hk (inv.writes i k hw)).symm) (inv.tidy j)
    · intro j k hk
      by_cases hj : j = i
      · subst hj; simp only [if_true]; rw [kp.store]; exact inv.store j k hk
      · simp only [if_neg hj]
        rw [← (other j hj).2.2 k fun hw => (hc i j (Ne.symm hj) k).1 hw hk.touches]
        exact inv.store j k hk
    · intro k hk
      rw [kp.unwritten k fun hw => hk i (inv.writes i k hw)]
      exact inv.unwritten k hk

/-- What programs that do not conflict have done when all have returned. -/
theorem run_finished {ps qs : ι → Prog} {m m' : Store} (h : Run ps m qs m') (hf : Finished qs)
    (ht : ∀ i, Tidy (ps i) m)
    (hc : ∀ i j, i ≠ j → NoConflict (exec (ps i) m).log (exec (ps j) m).log) :
    (∀ i, qs i = .ret (exec (ps i) m).out) ∧
    (∀ i k, (exec (ps i) m).log.writes k → m' k = (exec (ps i) m).store k) ∧
    (∀ k, (∀ i, ¬ (exec (ps i) m).log.writes k) → m' k = m k) := by
  have inv := run_inv h ht hc
  refine ⟨?_, ?_, inv.unwritten⟩
  · intro i
    obtain ⟨o, ho⟩ := hf i
    have := inv.out i
    rw [ho] at this ⊢
    rw [← this]; rfl
  · intro i k hk
    obtain ⟨o, ho⟩ := hf i
    have := inv.store i k hk
    rw [ho] at this
    exact this

/-! ## Running alone, and one after the other, are ways to run -/

theorem Run.trans {ps qs rs : ι → Prog} {m m' m'' : Store} (h : Run ps m qs m')
    (h' : Run qs m' rs m'') : Run ps m rs m'' := by
  induction h' with
  | refl => exact h
  | step _ hs ih => exact ih.step hs

inductive Steps : Prog → Store → Prog → Store → Prop
  | refl {p m} : Steps p m p m
  | head {p m q m' r m''} : Step p m q m' → Steps q m' r m'' → Steps p m r m''

theorem Steps.trans {p q r : Prog} {m m' m'' : Store} (h : Steps p m q m') (h' : Steps q m' r m'') :
    Steps p m r m'' := by
  induction h with
  | refl => exact h'
  | head hs _ ih => exact .head hs (ih h')

theorem Steps.left {p p' q : Prog} {f : Res → Res → Prog} {m m' : Store} (h : Steps p m p' m') :
    Steps (.join p q f) m (.join p' q f) m' := by
  induction h with
  | refl => exact .refl
  | head hs _ ih => exact .head (.left hs) ih

theorem Steps.right {p q q' : Prog} {f : Res → Res → Prog} {m m' : Store} (h : Steps q m q' m') :
    Steps (.join p q f) m (.join p q' f) m' := by
  induction h with
  | refl => exact .refl
  | head hs _ ih => exact .head (.right hs) ih

/-- `exec` is one of the ways a program can run. -/
theorem exec_steps (p : Prog) : ∀ m, Steps p m (.ret (exec p m).out) (exec p m).store := by
  induction p with
  | ret o => intro m; exact .refl
  | get k f ih => intro m; exact .head .get (ih _ m)
  | insert k v f ih => intro m; exact .head .insert (ih _ _)
  | remove k f ih => intro m; exact .head .remove (ih _ _)
  | scan lo hi f ih => intro m; exact .head .scan (ih _ m)
  | clear lo hi p ih => intro m; exact .head .clear (ih _)
  | join p q f ihp ihq ihf =>
    intro m
    have h1 := (ihp m).left (q := q) (f := f)
    have h2 := (ihq (exec p m).store).right (p := .ret (exec p m).out) (f := f)
    rcases exec_join p q f m with ⟨a, b, ha, hb, he⟩ | ⟨a, ha, hb, he⟩ | ⟨hp, he⟩
    · rw [he]
      rw [ha] at h1 h2; rw [hb] at h2
      exact (h1.trans h2).trans (.head .both (ihf a b _))
    · rw [he]
      refine (h1.trans h2).trans ?_
      simp only
      cases hq : (exec q (exec p m).store).out with
      | ok b => exact absurd hq (hb b)
      | err e => exact .head .failRight .refl
      | panic => exact .head .panicRight .refl
    · rw [he]
      refine h1.trans ?_
      cases hq : (exec p m).out with
      | ok b => exact absurd hq (hp b)
      | err e => exact .head .failLeft .refl
      | panic => exact .head .panicLeft .refl

theorem Steps.run {ps : ι → Prog} {i : ι} {p q : Prog} {m m' : Store} (h : Steps p m q m') :
    ps i = p → Run ps m (fun j => if j = i then q else ps j) m' := by
  induction h generalizing ps with
  | @refl p _ =>
    intro hp
    have : (fun j => if j = i then p else ps j) = ps := by
      funext j; split <;> simp_all
    rw [this]; exact .refl
  | @head p _ q _ _ _ hs _ ih =>
    intro hp
    have r1 : Run ps _ _ _ := Run.refl.step (i := i) (by rw [hp]; exact hs)
    have r2 := ih (ps := fun j => if j = i then q else ps j) (by simp)
    have := r1.trans r2
    refine (congrArg (fun g => Run ps _ g _) ?_).mp this
    funext j; split <;> rfl

/-- The programs that have been run. -/
def finish (ps : ι → Prog) (os : List (ι × Outcome)) : ι → Prog := fun j =>
  match os.find? (fun x => x.1 = j) with
  | some x => .ret x.2
  | none => ps j

theorem serial_run (l : List ι) : ∀ (ps : ι → Prog) (m : Store), l.Nodup →
    Run ps m (finish ps (serial ps l m).2) (serial ps l m).1 := by
  induction l with
  | nil => intro ps m _; exact .refl
  | cons i l ih =>
    intro ps m hn
    rw [List.nodup_cons] at hn
    simp only [serial]
    have r1 := (exec_steps (ps i) m).run (ps := ps) (i := i) rfl
    have r2 := ih (fun j => if j = i then .ret (exec (ps i) m).out else ps j) (exec (ps i) m).store hn.2
    have hser : ∀ (l : List ι) (m : Store) (p : Prog), i ∉ l →
        serial (fun j => if j = i then p else ps j) l m = serial ps l m := by
      intro l
      induction l with
      | nil => intro _ _ _; rfl
      | cons j l ih =>
        intro m p hi
        simp only [List.mem_cons, not_or] at hi
        simp only [serial, if_neg (Ne.symm hi.1)]
        rw [ih _ _ hi.2]
    rw [hser _ _ _ hn.1] at r2
    have := r1.trans r2
    refine (congrArg (fun g => Run ps _ g _) ?_).mp this
    have hno : ∀ (l : List ι) (m : Store), i ∉ l →
        ∀ x ∈ (serial ps l m).2, x.1 ≠ i := by
      intro l
      induction l with
      | nil => intro _ _ x hx; simp [serial] at hx
      | cons j l ih =>
        intro m hi x hx
        simp only [List.mem_cons, not_or] at hi
        simp only [serial, List.mem_cons] at hx
        rcases hx with rfl | hx
        · exact Ne.symm hi.1
        · exact ih _ hi.2 x hx
    funext j
    simp only [finish, List.find?_cons]
    by_cases hj : j = i
    · subst hj
      have : (serial ps l (exec (ps j) m).store).2.find? (fun x => decide (x.1 = j)) = none := by
        rw [List.find?_eq_none]
        intro x hx
        simpa using hno l _ hn.1 x hx
      simp [this]
    · have : ¬ i = j := fun h => hj h.symm
      simp [this, hj]

omit [DecidableEq ι] in
theorem serial_index (ps : ι → Prog) (l : List ι) : ∀ m, (serial ps l m).2.map (·.1) = l := by
  induction l with
  | nil => intro m; rfl
  | cons i l ih => intro m; simp only [serial, List.map_cons, ih]

theorem finish_finished (ps : ι → Prog) (l : List ι) (m : Store) (hl : ∀ i, i ∈ l) :
    Finished (finish ps (serial ps l m).2) := by
  intro i
  unfold finish
  cases h : (serial ps l m).2.find? (fun x => x.1 = i) with
  | some x => exact ⟨_, rfl⟩
  | none =>
    rw [List.find?_eq_none] at h
    have : i ∈ (serial ps l m).2.map (·.1) := by rw [serial_index]; exact hl i
    obtain ⟨x, hx, he⟩ := List.mem_map.1 this
    exact absurd (h x hx) (by simp [he])

end Verif.Isol
