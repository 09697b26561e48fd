import Verif.Progress.Calls
/-!
# There is always a next step
-/

namespace Verif.Progress

variable {s s' : Sys} {cap : Nat}

/-- Has a lock. -/
def PC.holds (p : PC) : Bool := p.txgR || p.txgW || p.fsR || p.fsW

/-- Neither returned, nor asleep, nor about to start a sync. -/
def PC.active : PC → Bool
  | .done | .asleep _ _ _ | .syncStart => false
  | _ => true

theorem plain_fsW {p : PC} (h : p.plain cap = true) : p.fsW = false := by
  cases p <;> first | rfl | (cases h; done)

theorem syncer_fsW {p : PC} (h : p.atSyncer = true) : p.fsW = false := by
  cases p <;> first | rfl | (cases h; done)

theorem fsRead_plain (h : Plain cap s) : s.fsRead = true := by
  simp only [Sys.fsRead, List.all_cons, Bool.and_eq_true, Bool.not_eq_true', List.all_eq_true]
  refine ⟨syncer_fsW h.syncer, fun p hp => ?_⟩
  obtain ⟨i, hi⟩ := mem_get hp
  exact plain_fsW (h.tasks i p hi)

theorem syncer_holder (h : Plain cap s) (hh : s.syncer.holds = true) : ∃ s', stepSyncer s = some s' := by
  have hf := fsRead_plain h
  have ha := h.syncer
  unfold stepSyncer
  cases hs : s.syncer <;> rw [hs] at hh ha <;> first | (cases ha; done) | skip
  all_goals first | (cases hh; done) | skip
  all_goals simp only [hf, if_true]
  all_goals exact ⟨_, rfl⟩

theorem task_holder (h : Plain cap s) {i : Nat} {p : PC} (hi : s.tasks[i]? = some p)
    (hh : p.holds = true) : ∃ s', stepTask s i p 0 0 = some s' := by
  have hf := fsRead_plain h
  have hp := h.tasks i p hi
  unfold stepTask
  cases p with
  | opening k t w => cases k <;> first | (cases hh; done) | (cases hp; done)
  | installing k t w => cases k <;> first | (cases hh; done) | (cases hp; done)
  | borrowing k t w => exact ⟨_, rfl⟩
  | asleep k t w => cases k <;> first | (cases hh; done) | (cases hp; done)
  | txg k t w => cases k <;> first | (cases hh; done) | (cases hp; done)
  | work k t w => exact ⟨_, rfl⟩
  | clean => exact ⟨_, rfl⟩
  | syncFs => simp only [hf, if_true]; exact ⟨_, rfl⟩
  | syncFlush => exact ⟨_, rfl⟩
  | syncRest => exact ⟨_, rfl⟩
  | _ => first | (cases hh; done) | (cases hp; done)

/-- Without lock holders every lock can be had. -/
theorem no_holder (h1 : s.syncer.holds = false) (h2 : ∀ p ∈ s.tasks, p.holds = false) :
    s.txgRead = true ∧ s.txgWrite = true ∧ s.fsRead = true ∧ s.fsWrite = true := by
  have h : ∀ p ∈ s.syncer :: s.tasks, p.txgR = false ∧ p.txgW = false ∧ p.fsR = false ∧ p.fsW = false := by
    intro p hp
    have : p.holds = false := by
      rcases List.mem_cons.1 hp with rfl | hp
      · exact h1
      · exact h2 p hp
    simp only [PC.holds, Bool.or_eq_false_iff] at this
    exact ⟨this.1.1.1, this.1.1.2, this.1.2, this.2⟩
  refine ⟨List.all_eq_true.2 fun p hp => ?_, List.all_eq_true.2 fun p hp => ?_,
    List.all_eq_true.2 fun p hp => ?_, List.all_eq_true.2 fun p hp => ?_⟩
  all_goals
    obtain ⟨h1, h2, h3, h4⟩ := h p hp
    simp only [h1, h2, h3, h4]; rfl

theorem free_task (hl : s.txgRead = true ∧ s.txgWrite = true ∧ s.fsRead = true ∧ s.fsWrite = true)
    {i : Nat} {p : PC} (hp : p.plain cap = true) (ha : p.active = true) :
    ∃ s', stepTask s i p 0 0 = some s' := by
  obtain ⟨h1, h2, h3, h4⟩ := hl
  unfold stepTask
  cases p
  case opening k t w => simp only [h3, if_true]; split <;> exact ⟨_, rfl⟩
  case installing k t w => simp only [h4, if_true]; split <;> exact ⟨_, rfl⟩
  all_goals first | (cases ha; done) | (cases hp; done) | skip
  all_goals simp only [h1, h2, h3, if_true]
  all_goals exact ⟨_, rfl⟩

theorem free_syncer (hl : s.txgRead = true ∧ s.txgWrite = true ∧ s.fsRead = true ∧ s.fsWrite = true)
    (ha : s.syncer.atSyncer = true) (hd : s.syncer ≠ .done) : ∃ s', stepSyncer s = some s' := by
  obtain ⟨h1, h2, h3, h4⟩ := hl
  unfold stepSyncer
  cases hs : s.syncer <;> rw [hs] at ha hd <;> first | (cases ha; done) | skip
  all_goals first | exact absurd rfl hd | skip
  all_goals simp only [h1, h2, h3, if_true]
  all_goals exact ⟨_, rfl⟩

/-- As long as the syncer is in a round, or a call neither sleeps nor is about to start a sync, one of
them can go on. -/
theorem some_step (h : Plain cap s)
    (ha : s.syncer ≠ .done ∨ ∃ (i : Nat) (p : PC), s.tasks[i]? = some p ∧ p.active = true) :
    (∃ s', stepSyncer s = some s') ∨ ∃ (i : Nat) (p : PC), s.tasks[i]? = some p ∧ p ≠ .syncStart ∧
      ∃ s', stepTask s i p 0 0 = some s' := by
  by_cases h1 : s.syncer.holds = true
  · exact .inl (syncer_holder h h1)
  · by_cases h2 : ∃ (i : Nat) (p : PC), s.tasks[i]? = some p ∧ p.holds = true
    · obtain ⟨i, p, hi, hh⟩ := h2
      exact .inr ⟨i, p, hi, (by rintro rfl; cases hh), task_holder h hi hh⟩
    · have hl := no_holder (s := s) (Bool.not_eq_true _ ▸ h1) (fun p hp => by
        obtain ⟨i, hi⟩ := mem_get hp
        cases hh : p.holds with
        | false => rfl
        | true => exact absurd ⟨i, p, hi, hh⟩ h2)
      rcases ha with hd | ⟨i, p, hi, hp⟩
      · exact .inl (free_syncer hl h.syncer hd)
      · exact .inr ⟨i, p, hi, (by rintro rfl; cases hp), free_task hl (h.tasks i p hi) hp⟩

theorem sum_zero {f : PC → Nat} : ∀ {l : List PC}, (∀ p ∈ l, f p = 0) → (l.map f).sum = 0
  | [], _ => rfl
  | p :: l, h => by
    simp only [List.map_cons, List.sum_cons, h p List.mem_cons_self,
      sum_zero fun q hq => h q (List.mem_cons_of_mem _ hq)]

theorem sum_cached : ∀ {l : List Tree}, (∀ x ∈ l, x.cached = true) →
    (l.map fun x => if x.cached then x.credit else 0).sum = (l.map Tree.credit).sum
  | [], _ => rfl
  | x :: l, h => by
    simp only [List.map_cons, List.sum_cons, h x List.mem_cons_self, if_true,
      sum_cached fun q hq => h q (List.mem_cons_of_mem _ hq)]

/-- When everybody sleeps, a flush wakes the first. -/
theorem flush_wakes (h : Plain cap s) (hd : s.dirty = true) (hsy : s.syncer = .done)
    (hp : ∀ p ∈ s.tasks, p.active = false) {i : Nat} {p : PC} (hi : s.tasks[i]? = some p)
    (hs : p.sleeps = true) :
    ∃ s', (Finishes s' → Finishes s) ∧ Nearer cap s s' := by
  have idle : ∀ p ∈ s.tasks, p.holds = false ∧ p.credit = 0 := by
    intro p hm
    have h1 := hp p hm
    obtain ⟨j, hj⟩ := mem_get hm
    have h2 := h.tasks j p hj
    cases p
    case asleep k t w => cases k <;> first | exact ⟨rfl, rfl⟩ | (cases h2; done)
    all_goals first | (cases h1; done) | exact ⟨rfl, rfl⟩
  have locks : ∀ q : PC, q.txgW = false → q.fsW = false →
      Sys.txgRead { s with syncer := q } = true ∧ Sys.fsRead { s with syncer := q } = true := by
    intro q h1 h2
    refine ⟨List.all_eq_true.2 fun p hp => ?_, List.all_eq_true.2 fun p hp => ?_⟩
    all_goals
      rcases List.mem_cons.1 hp with rfl | hp
      · simp only [h1, h2]; rfl
      · have := (idle p hp).1
        simp only [PC.holds, Bool.or_eq_false_iff] at this
        simp only [this.1.1.2, this.2]; rfl
  have e1 : step s .flush = some { s with syncer := .flushTxg } := by
    simp only [step, hsy, if_true, hd]
  have e2 : step { s with syncer := .flushTxg } .syncer = some { s with syncer := .flushFs } := by
    simp only [step, stepSyncer, (locks .flushTxg rfl rfl).1, if_true]
  have e3 : step { s with syncer := .flushFs } .syncer = some { s with syncer := .flushing } := by
    simp only [step, stepSyncer, (locks .flushFs rfl rfl).2, if_true]
  have e4 : step { s with syncer := .flushing } .syncer = some (flushAll { s with syncer := .done }) := rfl
  have hself : { s with syncer := .done } = s := by rw [← hsy]
  rw [hself] at e4
  refine ⟨flushAll s, fun hf => .flush e1 (.syncer e2 (.syncer e3 (.syncer e4 hf))), ?_⟩
  have hn := flushAll_nearer (s₀ := { s with syncer := .flushing }) h (fun _ => .inl hd)
    (by simp only [Sys.weight, hsy, PC.weight]; omega)
  refine ⟨hn.plain, fun _ => hn.flushes (.inl hd), ?_⟩
  have hc := h.inv.conserve
  rw [sum_zero fun p hm => (idle p hm).2] at hc
  have hq := h.inv.sleepers i p hi hs
  rcases h.inv.head with h0 | ⟨j, q, k, t, w, h1, h2, h3⟩
  · rw [h0] at hq; cases hq
  · have hw : w ≤ cap := by
      have := h.tasks j _ h2
      cases k <;> first | exact of_decide_eq_true this | (cases this; done)
    have hcap := h.size
    have hsum := sum_cached h.cached
    have hsync := hn.plain.syncer
    have hk : (flushAll s).syncer = s.syncer := (repay_inv (s := { s with
      trees := s.trees.map fun x => if x.cached then { x with credit := 0 } else x })
      (by
        have hf := sum_flush s.trees
        have hc := h.inv.conserve
        exact ⟨by dsimp only; omega, h.inv.sleepers, h.inv.head⟩)).2.syncer
    unfold Sys.weight
    rw [hk]
    refine Nat.add_lt_add_left ?_ _
    unfold flushAll repay
    rw [hsum, if_neg (by omega)]
    dsimp only
    rw [h1]
    exact awaken_lt (s := { s with
      supply := s.supply + (s.trees.map Tree.credit).sum
      queue := j :: q
      trees := s.trees.map fun x => if x.cached then { x with credit := 0 } else x }) h2 (by
        dsimp only; omega)

theorem finishes : ∀ (n : Nat) (s : Sys), s.weight ≤ n → Plain cap s → Flushes s → Finishes s := by
  intro n
  induction n with
  | zero =>
    intro s hw h hf
    refine .now fun p hp => ?_
    obtain ⟨i, hi⟩ := mem_get hp
    have hs := sum_map_set PC.weight s.tasks i .done hi
    have hp := h.tasks i p hi
    simp only [Sys.weight] at hw
    have : p.weight = 0 := by simp only [PC.weight] at hs ⊢; omega
    cases p <;> first | rfl | (cases hp; done) | (cases this; done)
  | succ n ih =>
    intro s hw h hf
    have next : ∀ {s'}, Nearer cap s s' → Finishes s' := fun hn =>
      ih _ (by have := hn.weight; omega) hn.plain (hn.flushes hf)
    by_cases ha : s.syncer ≠ .done ∨ ∃ (i : Nat) (p : PC), s.tasks[i]? = some p ∧ p.active = true
    · rcases some_step h ha with ⟨s', hs⟩ | ⟨i, p, hi, hne, s', hs⟩
      · exact .syncer hs (next (stepSyncer_nearer h hs))
      · refine .task i ⟨s', by simp only [step, hi]; exact hs⟩ fun n m s'' hs' => ?_
        simp only [step, hi] at hs'
        exact next (stepTask_nearer h hi hne hs')
    · have hsy : s.syncer = .done := Decidable.byContradiction fun hc => ha (.inl hc)
      have hp : ∀ p ∈ s.tasks, p.active = false := by
        intro p hm
        obtain ⟨i, hi⟩ := mem_get hm
        cases hh : p.active with
        | false => rfl
        | true => exact absurd (.inr ⟨i, p, hi, hh⟩) ha
      by_cases hz : ∃ (i : Nat) (p : PC), s.tasks[i]? = some p ∧ p.sleeps = true
      · obtain ⟨i, p, hi, hs⟩ := hz
        have hd : s.dirty = true := by
          rcases hf with hd | hw
          · exact hd
          · have := hw p (get_mem hi)
            cases p <;> first | (cases hs; done) | (cases this; done)
        obtain ⟨s', h1, h2⟩ := flush_wakes h hd hsy hp hi hs
        exact h1 (next h2)
      · by_cases hy : ∃ i : Nat, s.tasks[i]? = some .syncStart
        · obtain ⟨i, hi⟩ := hy
          have hwait : ∀ p ∈ s.tasks, p.waits = false := by
            intro p hm
            obtain ⟨j, hj⟩ := mem_get hm
            have h1 := hp p hm
            cases p
            case asleep k t w => exact absurd ⟨j, _, hj, rfl⟩ hz
            all_goals first | (cases h1; done) | rfl
          have key : ∀ n m s', step s (.task i n m) = some s' → Nearer cap s s' := by
            intro n m s' hs
            simp only [step, hi, stepTask] at hs
            split at hs
            · cases hs
              have h1 := h.set hi rfl .syncTxg rfl rfl rfl
              exact ⟨⟨h1.inv.congr rfl rfl rfl rfl rfl, h1.size, h1.tasks, h1.syncer, h1.cached⟩,
                fun _ => .inr (by
                  rcases Flushes.set (s := { s with dirty := false }) (.inr hwait) hi (q := .syncTxg)
                    (fun h => by cases h) with h | h
                  · cases h
                  · exact h), weight_set hi .syncTxg (by simp [PC.weight])⟩
            · cases hs
              exact h.nearer hi rfl _ rfl rfl rfl (by simp [PC.weight]) (fun h => by cases h)
          refine .task i ?_ fun n m s' hs => next (key n m s' hs)
          simp only [step, hi, stepTask]
          split <;> exact ⟨_, rfl⟩
        · refine .now fun p hm => ?_
          obtain ⟨i, hi⟩ := mem_get hm
          have h1 := hp p hm
          have h2 := h.tasks i p hi
          cases p
          case asleep k t w => exact absurd ⟨i, _, hi, rfl⟩ hz
          case syncStart => exact absurd ⟨i, hi⟩ hy
          all_goals first | rfl | (cases h1; done)

end Verif.Progress
