import Verif.Cache.Fill
import Verif.Cache.Props

/-! # C05: failed cache fills -/

namespace Verif.Cache.Fill

open Spec (Op)

variable {K V : Type} [DecidableEq K] [DecidableEq V]

/-! ## Signalling -/

omit [DecidableEq K] [DecidableEq V] in
theorem signal_length (ws : List Nat) (ts : List (Task K V)) : (signal ws ts).1.length = ts.length := by
  induction ws generalizing ts with
  | nil => rfl
  | cons w ws ih =>
    simp only [signal]
    split
    · rw [ih]; simp
    · rfl

omit [DecidableEq K] [DecidableEq V] in
/-- Signalling changes nothing but the flags of waiting tasks on the list. -/
theorem signal_get (ws : List Nat) (ts : List (Task K V)) (i : Nat) :
    (signal ws ts).1[i]? = ts[i]? ∨
      ∃ k b, ts[i]? = some (.waiting k b) ∧ (signal ws ts).1[i]? = some (.waiting k true) ∧ i ∈ ws := by
  induction ws generalizing ts with
  | nil => exact Or.inl rfl
  | cons w ws ih =>
    simp only [signal]
    split
    · rename_i k b hw
      have hlt : w < ts.length := (List.getElem?_eq_some_iff.mp hw).1
      rcases ih (ts.set w (.waiting k true)) with h | ⟨k', b', h1, h2, h3⟩
      · rw [List.getElem?_set] at h
        by_cases hi : w = i
        · subst hi
          rw [if_pos rfl, if_pos hlt] at h
          exact Or.inr ⟨k, b, hw, h, by simp⟩
        · rw [if_neg hi] at h; exact Or.inl h
      · rw [List.getElem?_set] at h1
        by_cases hi : w = i
        · subst hi
          rw [if_pos rfl, if_pos hlt] at h1
          cases h1
          exact Or.inr ⟨k, b, hw, h2, by simp⟩
        · rw [if_neg hi] at h1
          exact Or.inr ⟨k', b', h1, h2, List.mem_cons_of_mem _ h3⟩
    · exact Or.inl rfl

/-! ## The wedge -/

/-- Task `t` waits for `k`, which is marked as pending although nobody is
filling it. -/
structure Wedged (s : State K V) (k : K) (t : Nat) : Prop where
  pending : HMap.get s.pending k ≠ none
  idle : ¬ ioRunning s k
  waits : s.tasks[t]? = some (.waiting k false)
  others : ∀ k' ws, k' ≠ k → HMap.get s.pending k' = some ws → t ∉ ws

omit [DecidableEq K] [DecidableEq V] in
theorem mem_set_filling {ts : List (Task K V)} {i : Nat} {T : Task K V} {k : K}
    (hT : T ≠ .filling k) (h : Task.filling k ∈ ts.set i T) : Task.filling k ∈ ts := by
  rcases List.mem_or_eq_of_mem_set h with h | h
  · exact h
  · exact absurd h.symm hT

omit [DecidableEq K] [DecidableEq V] in
theorem mem_signal_filling {ws : List Nat} {ts : List (Task K V)} {k : K}
    (h : Task.filling k ∈ (signal ws ts).1) : Task.filling k ∈ ts := by
  obtain ⟨i, hi⟩ := List.mem_iff_getElem?.mp h
  rcases signal_get ws ts i with h | ⟨k', b, h1, h2, -⟩
  · rw [hi] at h; exact List.mem_iff_getElem?.mpr ⟨i, h.symm⟩
  · rw [hi] at h2; cases h2

theorem wedged_step {sz : V → Nat} {s s' : State K V} {k : K} {t : Nat} {e : Event K V}
    (h : Wedged s k t) (hd : ∀ t', e = .drop t' → t' ≠ t) (hs : step sz s e = some s') :
    Wedged s' k t := by
  have hlt : t < s.tasks.length := (List.getElem?_eq_some_iff.mp h.waits).1
  cases e with
  | start k' =>
    simp only [step] at hs
    split at hs
    · cases hs
    · cases hs
      refine ⟨h.pending, ?_, ?_, h.others⟩
      · have := h.idle; simp only [ioRunning, List.mem_append] at this ⊢; simpa using this
      · simp only; rw [List.getElem?_append_left hlt]; exact h.waits
    · split at hs
      · rename_i ws hws
        cases hs
        refine ⟨?_, ?_, ?_, ?_⟩
        · simp only [HMap.get_put]; split
          · simp
          · exact h.pending
        · have := h.idle; simp only [ioRunning, List.mem_append] at this ⊢; simpa using this
        · simp only; rw [List.getElem?_append_left hlt]; exact h.waits
        · intro k'' ws' hk hg
          simp only [HMap.get_put] at hg
          split at hg
          · rename_i heq
            subst heq
            cases hg
            have := h.others k' ws hk hws
            simp only [List.mem_append, List.mem_singleton, not_or]
            exact ⟨this, by omega⟩
          · exact h.others _ _ hk hg
      · rename_i hn
        have hkk : k' ≠ k := by rintro rfl; exact h.pending hn
        cases hs
        refine ⟨?_, ?_, ?_, ?_⟩
        · simp only [HMap.get_put]; split
          · simp
          · exact h.pending
        · have := h.idle
          simp only [ioRunning, List.mem_append, List.mem_singleton, Task.filling.injEq] at this ⊢
          rintro (h | h)
          · exact this h
          · exact hkk h.symm
        · simp only; rw [List.getElem?_append_left hlt]; exact h.waits
        · intro k'' ws' hk hg
          simp only [HMap.get_put] at hg
          split at hg
          · cases hg; simp
          · exact h.others _ _ hk hg
  | fillOk f v =>
    simp only [step] at hs
    split at hs
    · rename_i k' hf
      have hft : f ≠ t := by rintro rfl; rw [h.waits] at hf; cases hf
      have hkk : k' ≠ k := by rintro rfl; exact h.idle (List.mem_iff_getElem?.mpr ⟨f, hf⟩)
      split at hs
      · cases hs
        refine ⟨h.pending, fun hc => h.idle (mem_set_filling (by simp) hc), ?_, h.others⟩
        simp only; rw [List.getElem?_set_ne hft]; exact h.waits
      · have hpend : HMap.get (HMap.erase s.pending k') k ≠ none := by
          rw [HMap.get_erase, if_neg hkk]; exact h.pending
        have hoth : ∀ k'' ws, k'' ≠ k → HMap.get (HMap.erase s.pending k') k'' = some ws → t ∉ ws := by
          intro k'' ws hk hg
          rw [HMap.get_erase] at hg
          split at hg
          · cases hg
          · exact h.others _ _ hk hg
        split at hs
        · rename_i ws hws
          have htw := h.others k' ws hkk hws
          have hsig : (signal ws s.tasks).1[t]? = some (.waiting k false) := by
            rcases signal_get ws s.tasks t with hq | ⟨_, _, _, _, hq⟩
            · rw [hq]; exact h.waits
            · exact absurd hq htw
          split at hs
          · rename_i ts hts
            cases hs
            rw [hts] at hsig
            have hts' : ts = (signal ws s.tasks).1 := by rw [hts]
            refine ⟨hpend, fun hc => h.idle ?_, ?_, hoth⟩
            · have := mem_set_filling (by simp) hc
              rw [hts'] at this
              exact mem_signal_filling this
            · simp only; rw [List.getElem?_set_ne hft]; exact hsig
          · rename_i ts hts
            cases hs
            rw [hts] at hsig
            have hts' : ts = (signal ws s.tasks).1 := by rw [hts]
            refine ⟨hpend, fun hc => h.idle ?_, ?_, hoth⟩
            · have := mem_set_filling (by simp) hc
              rw [hts'] at this
              exact mem_signal_filling this
            · simp only; rw [List.getElem?_set_ne hft]; exact hsig
        · cases hs
          refine ⟨h.pending, fun hc => h.idle (mem_set_filling (by simp) hc), ?_, h.others⟩
          simp only; rw [List.getElem?_set_ne hft]; exact h.waits
    · cases hs
  | fillErr f =>
    simp only [step] at hs
    split at hs
    · rename_i k' hf
      have hft : f ≠ t := by rintro rfl; rw [h.waits] at hf; cases hf
      cases hs
      refine ⟨h.pending, fun hc => h.idle (mem_set_filling (by simp) hc), ?_, h.others⟩
      simp only; rw [List.getElem?_set_ne hft]; exact h.waits
    · cases hs
  | poll f =>
    simp only [step] at hs
    split at hs
    · rename_i k' hf
      have hft : f ≠ t := by rintro rfl; rw [h.waits] at hf; cases hf
      split at hs
      · cases hs
      · cases hs
        refine ⟨h.pending, fun hc => h.idle (mem_set_filling (by simp) hc), ?_, h.others⟩
        simp only; rw [List.getElem?_set_ne hft]; exact h.waits
      · cases hs
        refine ⟨h.pending, fun hc => h.idle (mem_set_filling (by simp) hc), ?_, h.others⟩
        simp only; rw [List.getElem?_set_ne hft]; exact h.waits
    · cases hs
  | drop f =>
    have hft : f ≠ t := hd f rfl
    simp only [step] at hs
    split at hs
    · cases hs
      refine ⟨h.pending, fun hc => h.idle (mem_set_filling (by simp) hc), ?_, h.others⟩
      simp only; rw [List.getElem?_set_ne hft]; exact h.waits
    · cases hs
      refine ⟨h.pending, fun hc => h.idle (mem_set_filling (by simp) hc), ?_, h.others⟩
      simp only; rw [List.getElem?_set_ne hft]; exact h.waits
    · cases hs
  | other o =>
    simp only [step] at hs
    split at hs
    · cases hs
    · cases hs
      exact ⟨h.pending, h.idle, h.waits, h.others⟩

theorem wedged_run {sz : V → Nat} {k : K} {t : Nat} (es : List (Event K V)) :
    ∀ {s s' : State K V}, Wedged s k t → (∀ t', Event.drop t' ∈ es → t' ≠ t) →
      run sz s es = some s' → Wedged s' k t := by
  induction es with
  | nil => intro s s' h _ hr; cases hr; exact h
  | cons e es ih =>
    intro s s' h hd hr
    simp only [run] at hr
    split at hr
    · cases hr
    · rename_i s1 hs
      exact ih (wedged_step h (fun t' he => hd t' (by simp [he])) hs)
        (fun t' ht => hd t' (List.mem_cons_of_mem _ ht)) hr

/-- The property is false of the code: when the I/O of the first reader of a
block fails, the second reader waits, no I/O is running for it, and whatever
happens afterwards (other reads, successful or failing I/Os, insertions into
the cache) it stays so forever, unless the reader is cancelled. -/
theorem C05_failed_fill_wedges (sz : V → Nat) (cap : Nat) (k : K) :
    (∃ s, run (V := V) sz (init cap) [.start k, .fillErr 0, .start k] = some s) ∧
    ∀ (es : List (Event K V)) (s : State K V), Event.drop 1 ∉ es →
      run sz (init cap) ([.start k, .fillErr 0, .start k] ++ es) = some s →
      s.tasks[1]? = some (.waiting k false) ∧ ¬ ioRunning s k := by
  have h0 : run (V := V) sz (init cap) [.start k, .fillErr 0, .start k] =
      some ⟨withCapacity cap, [(k, [1])], [.failed, .waiting k false]⟩ := by
    simp [run, step, init, get, withCapacity, HMap.get, HMap.put, HMap.erase]
  refine ⟨⟨_, h0⟩, ?_⟩
  intro es s hd hr
  have happ : ∀ (a b : List (Event K V)) (x : State K V), run sz x (a ++ b) =
      (run sz x a).bind (fun y => run sz y b) := by
    intro a b
    induction a with
    | nil => intro x; rfl
    | cons e a ih =>
      intro x
      simp only [List.cons_append, run]
      split
      · rfl
      · exact ih _
  rw [happ, h0] at hr
  have := wedged_run (k := k) (t := 1) es (s' := s) ⟨by simp [HMap.get], by simp [ioRunning], rfl, by
    intro k' ws hk hg
    simp only [HMap.get] at hg
    split at hg
    · rename_i hc; exact absurd hc.symm hk
    · cases hg⟩ (by rintro t' ht rfl; exact hd ht) hr
  exact ⟨this.waits, this.idle⟩

/-- Two more ways in which a reader is not served: the block is evicted before
the waiting reader runs, or the waiting reader was cancelled and the filling
one panics. -/
theorem C05_evicted_before_poll_panics :
    ∃ s : State Nat Nat,
      run (fun _ => 1) (init 1) [.start 7, .start 7, .fillOk 0 5, .other (.insert 8 6), .poll 1] = some s ∧
      s.tasks = [.ok 5, .panicked] :=
  ⟨_, rfl, by decide⟩

theorem C05_cancelled_waiter_panics_filler :
    ∃ s : State Nat Nat,
      run (fun _ => 1) (init 1) [.start 7, .start 7, .drop 1, .fillOk 0 5] = some s ∧
      s.tasks = [.panicked, .dropped] :=
  ⟨_, rfl, by decide⟩

/-! ## Without failures -/

/-- The events the positive result allows: no failing I/O, no cancellation, and
no filled block that conflicts with the cache. -/
def clean (sz : V → Nat) (s : State K V) : Event K V → Prop
  | .fillErr _ | .drop _ => False
  | .fillOk t v => ∀ k, s.tasks[t]? = some (.filling k) → insert sz s.cache k v ≠ none
  | _ => True

def cleanRun (sz : V → Nat) : State K V → List (Event K V) → Prop
  | _, [] => True
  | s, e :: es => clean sz s e ∧ ∀ s', step sz s e = some s' → cleanRun sz s' es

structure Inv (s : State K V) : Prop where
  fill : ∀ k, HMap.get s.pending k ≠ none ↔ ioRunning s k
  once : ∀ (i j : Nat) k, s.tasks[i]? = some (.filling k) → s.tasks[j]? = some (.filling k) → i = j
  listed : ∀ (t : Nat) k, s.tasks[t]? = some (.waiting k false) →
    ∃ ws, HMap.get s.pending k = some ws ∧ t ∈ ws
  waits : ∀ k ws t, HMap.get s.pending k = some ws → t ∈ ws →
    s.tasks[t]? = some (.waiting k false)

omit [DecidableEq K] [DecidableEq V] in
theorem signal_all {k : K} : ∀ {ws : List Nat} {ts : List (Task K V)},
    (∀ t ∈ ws, ∃ b, ts[t]? = some (.waiting k b)) →
    (signal ws ts).2 = true ∧ ∀ t ∈ ws, (signal ws ts).1[t]? = some (.waiting k true) := by
  intro ws
  induction ws with
  | nil => intro ts _; simp [signal]
  | cons w ws ih =>
    intro ts h
    obtain ⟨b, hb⟩ := h w (by simp)
    have hlt : w < ts.length := (List.getElem?_eq_some_iff.mp hb).1
    have hset : ∀ (t : Nat) (b : Bool), ts[t]? = some (.waiting k b) →
        ∃ b, (ts.set w (.waiting k true))[t]? = some (Task.waiting k b) := by
      intro t b ht
      by_cases hw : w = t
      · subst hw; exact ⟨true, by simp [hlt]⟩
      · exact ⟨b, by rw [List.getElem?_set_ne hw]; exact ht⟩
    obtain ⟨h1, h2⟩ := ih (ts := ts.set w (.waiting k true)) (fun t ht => by
      obtain ⟨b, hb⟩ := h t (List.mem_cons_of_mem _ ht)
      exact hset t b hb)
    simp only [signal, hb]
    refine ⟨h1, ?_⟩
    intro t ht
    rcases List.mem_cons.mp ht with rfl | ht
    · rcases signal_get ws (ts.set t (.waiting k true)) t with hq | ⟨k', b', hq1, hq2, _⟩
      · rw [hq]; simp [hlt]
      · rw [hq2]
        simp [hlt] at hq1
        simp [hq1.1]
    · exact h2 t ht

omit [DecidableEq V] in
theorem inv_append {s : State K V} (h : Inv s) {c : Lru K V} {T : Task K V}
    (h1 : ∀ k, T ≠ .filling k) (h2 : ∀ k, T ≠ .waiting k false) :
    Inv ⟨c, s.pending, s.tasks ++ [T]⟩ := by
  have hi : ∀ (i : Nat) {X : K → Task K V}, (∀ k, T ≠ X k) → ∀ k, (s.tasks ++ [T])[i]? = some (X k) → s.tasks[i]? = some (X k) := by
    intro i X hX k hi
    rw [List.getElem?_append] at hi
    split at hi
    · exact hi
    · rw [List.getElem?_singleton] at hi
      split at hi
      · cases hi; exact absurd rfl (hX k)
      · cases hi
  refine ⟨?_, ?_, ?_, ?_⟩
  · intro k
    have := h.fill k
    simp only [ioRunning, List.mem_append, List.mem_singleton] at this ⊢
    rw [this]
    exact ⟨Or.inl, fun hc => hc.elim id (fun hc => absurd hc.symm (h1 k))⟩
  · intro i j k a b; exact h.once i j k (hi i h1 k a) (hi j h1 k b)
  · intro t k a; exact h.listed t k (hi t (X := fun k => .waiting k false) h2 k a)
  · intro k ws t a b
    have hb := h.waits k ws t a b
    have hlt : t < s.tasks.length := (List.getElem?_eq_some_iff.mp hb).1
    simp only; rw [List.getElem?_append_left hlt]; exact hb

theorem inv_step {sz : V → Nat} {s s' : State K V} {e : Event K V} (h : Inv s)
    (hc : clean sz s e) (hs : step sz s e = some s') : Inv s' := by
  have fillMem : ∀ {i : Nat} {k}, s.tasks[i]? = some (.filling k) → ioRunning s k :=
    fun hi => List.mem_iff_getElem?.mpr ⟨_, hi⟩
  cases e with
  | start k =>
    simp only [step] at hs
    split at hs
    · cases hs
    · cases hs
      exact inv_append h (by simp) (by simp)
    · split at hs
      · rename_i ws hws
        cases hs
        refine ⟨?_, ?_, ?_, ?_⟩
        · intro k'
          simp only [HMap.get_put, ioRunning, List.mem_append, List.mem_singleton, reduceCtorEq, or_false]
          have := h.fill k'
          split
          · rename_i heq; subst heq
            simp only [ne_eq, reduceCtorEq, not_false_eq_true, true_iff]
            exact this.mp (by simp [hws])
          · exact this
        · intro i j k' a b
          simp only [List.getElem?_append, List.getElem?_singleton] at a b
          have ha : s.tasks[i]? = some (.filling k') := by grind
          have hb : s.tasks[j]? = some (.filling k') := by grind
          exact h.once i j k' ha hb
        · intro t k' a
          simp only [List.getElem?_append, List.getElem?_singleton] at a
          simp only [HMap.get_put]
          split at a
          · obtain ⟨ws', hg, hm⟩ := h.listed t k' a
            by_cases hk : k = k'
            · subst hk
              rw [hws] at hg; cases hg
              exact ⟨ws ++ [s.tasks.length], by simp, by simp [hm]⟩
            · exact ⟨ws', by simp [hk, hg], hm⟩
          · split at a
            · rename_i hlt hz
              simp only [Option.some.injEq, Task.waiting.injEq, and_true] at a
              subst a
              refine ⟨ws ++ [s.tasks.length], by simp, ?_⟩
              have : t = s.tasks.length := by omega
              simp [this]
            · cases a
        · intro k' ws' t a b
          simp only [HMap.get_put] at a
          split at a
          · rename_i heq; subst heq
            simp only [Option.some.injEq] at a
            subst a
            simp only [List.mem_append, List.mem_singleton] at b
            rcases b with b | b
            · have hb := h.waits _ _ t hws b
              have hlt : t < s.tasks.length := (List.getElem?_eq_some_iff.mp hb).1
              simp only; rw [List.getElem?_append_left hlt]; exact hb
            · subst b
              simp
          · have hb := h.waits _ _ t a b
            have hlt : t < s.tasks.length := (List.getElem?_eq_some_iff.mp hb).1
            simp only; rw [List.getElem?_append_left hlt]; exact hb
      · rename_i hn
        cases hs
        have hnf : ¬ ioRunning s k := fun hc => (h.fill k).mpr hc hn
        refine ⟨?_, ?_, ?_, ?_⟩
        · intro k'
          simp only [HMap.get_put, ioRunning, List.mem_append, List.mem_singleton, Task.filling.injEq]
          have := h.fill k'
          split
          · rename_i heq; subst heq; simp
          · rename_i hne
            simp only [ioRunning] at this
            rw [this]
            exact ⟨Or.inl, fun hc => hc.elim id (fun hc => absurd hc.symm hne)⟩
        · intro i j k' a b
          simp only [List.getElem?_append, List.getElem?_singleton] at a b
          by_cases hk : k = k'
          · subst hk
            have h1 : ∀ i : Nat, s.tasks[i]? ≠ some (.filling k) := fun i hi => hnf (fillMem hi)
            have ha : i = s.tasks.length := by
              have := h1 i
              split at a
              · exact absurd a this
              · split at a
                · omega
                · cases a
            have hb : j = s.tasks.length := by
              have := h1 j
              split at b
              · exact absurd b this
              · split at b
                · omega
                · cases b
            omega
          · have ha : s.tasks[i]? = some (.filling k') := by grind
            have hb : s.tasks[j]? = some (.filling k') := by grind
            exact h.once i j k' ha hb
        · intro t k' a
          simp only [List.getElem?_append, List.getElem?_singleton] at a
          have ha : s.tasks[t]? = some (.waiting k' false) := by grind
          obtain ⟨ws', hg, hm⟩ := h.listed t k' ha
          have hk : k ≠ k' := by rintro rfl; rw [hn] at hg; cases hg
          exact ⟨ws', by simp [HMap.get_put, hk, hg], hm⟩
        · intro k' ws' t a b
          simp only [HMap.get_put] at a
          split at a
          · cases a; simp at b
          · have hb := h.waits _ _ t a b
            have hlt : t < s.tasks.length := (List.getElem?_eq_some_iff.mp hb).1
            simp only; rw [List.getElem?_append_left hlt]; exact hb
  | fillOk f v =>
    simp only [step] at hs
    split at hs
    · rename_i k hf
      have hlt : f < s.tasks.length := (List.getElem?_eq_some_iff.mp hf).1
      split at hs
      · rename_i hi; exact absurd hi (hc k hf)
      · rename_i c hi
        have hp := (h.fill k).mpr (fillMem hf)
        split at hs
        · rename_i ws hws
          obtain ⟨hok, hall⟩ := signal_all (k := k) (ws := ws) (ts := s.tasks)
            (fun t ht => ⟨false, h.waits k ws t hws ht⟩)
          have hsl := signal_length ws s.tasks
          have hsg := signal_get ws s.tasks
          generalize signal ws s.tasks = sg at hs hok hall hsl hsg
          obtain ⟨ts, b⟩ := sg
          simp only at hok hall hsl hsg
          subst hok
          cases hs
          have hff : ts[f]? = some (.filling k) := by
            rcases hsg f with hq | ⟨k', b', hq, _, _⟩
            · rw [hq, hf]
            · rw [hf] at hq; cases hq
          -- entries of the new task list
          have back : ∀ (i : Nat) k', (ts.set f (.ok v))[i]? = some (.filling k') →
              i ≠ f ∧ s.tasks[i]? = some (.filling k') := by
            intro i k' hi
            by_cases hif : f = i
            · subst hif
              rw [List.getElem?_set_self (by omega)] at hi; cases hi
            · rw [List.getElem?_set_ne hif] at hi
              rcases hsg i with hq | ⟨_, _, _, hq, _⟩
              · exact ⟨Ne.symm hif, by rw [← hq]; exact hi⟩
              · rw [hi] at hq; cases hq
          refine ⟨?_, ?_, ?_, ?_⟩
          · intro k'
            rw [HMap.get_erase]
            by_cases hk : k = k'
            · subst hk
              simp only [if_true, ne_eq, not_true_eq_false, false_iff]
              intro hr
              obtain ⟨i, hi⟩ := List.mem_iff_getElem?.mp hr
              obtain ⟨h1, h2⟩ := back i k hi
              exact h1 (h.once i f k h2 hf)
            · rw [if_neg hk, h.fill k']
              constructor
              · intro hr
                obtain ⟨i, hi⟩ := List.mem_iff_getElem?.mp hr
                have hif : f ≠ i := by
                  rintro rfl; rw [hf] at hi; cases hi; exact hk rfl
                refine List.mem_iff_getElem?.mpr ⟨i, ?_⟩
                simp only
                rw [List.getElem?_set_ne hif]
                rcases hsg i with hq | ⟨_, _, hq, _, _⟩
                · rw [hq, hi]
                · rw [hi] at hq; cases hq
              · intro hr
                obtain ⟨i, hi⟩ := List.mem_iff_getElem?.mp hr
                exact List.mem_iff_getElem?.mpr ⟨i, (back i k' hi).2⟩
          · intro i j k' a b
            exact h.once i j k' (back i k' a).2 (back j k' b).2
          · intro t k' a
            by_cases hif : f = t
            · subst hif
              simp only at a
              rw [List.getElem?_set_self (by omega)] at a; cases a
            · simp only at a
              rw [List.getElem?_set_ne hif] at a
              rcases hsg t with hq | ⟨_, _, _, hq, _⟩
              · have ha : s.tasks[t]? = some (.waiting k' false) := by rw [← hq]; exact a
                obtain ⟨ws', hg, hm⟩ := h.listed t k' ha
                have hk : k ≠ k' := by
                  rintro rfl
                  rw [hws] at hg; cases hg
                  rw [hall t hm] at a; cases a
                exact ⟨ws', by simp [HMap.get_erase, hk, hg], hm⟩
              · rw [a] at hq; cases hq
          · intro k' ws' t a b
            rw [HMap.get_erase] at a
            split at a
            · cases a
            · rename_i hkk
              have hb := h.waits k' ws' t a b
              have hif : f ≠ t := by rintro rfl; rw [hf] at hb; cases hb
              simp only
              rw [List.getElem?_set_ne hif]
              rcases hsg t with hq | ⟨_, _, hq1, hq2, _⟩
              · rw [hq, hb]
              · have := h.waits k ws t hws ‹_›
                rw [hb] at this; cases this; exact absurd rfl hkk
        · rename_i hn; exact absurd hn hp
    · cases hs
  | fillErr f => exact absurd hc (by simp [clean])
  | drop f => exact absurd hc (by simp [clean])
  | poll f =>
    simp only [step] at hs
    split at hs
    · rename_i k hf
      have hlt : f < s.tasks.length := (List.getElem?_eq_some_iff.mp hf).1
      have key : ∀ (c : Lru K V) (T : Task K V), (∀ k, T ≠ .filling k) → (∀ k b, T ≠ .waiting k b) →
          Inv ⟨c, s.pending, s.tasks.set f T⟩ := by
        intro c T h1 h2
        refine ⟨?_, ?_, ?_, ?_⟩
        · intro k'
          rw [show HMap.get _ k' = HMap.get s.pending k' from rfl, h.fill k']
          constructor
          · intro hr
            obtain ⟨i, hi⟩ := List.mem_iff_getElem?.mp hr
            have hif : f ≠ i := by rintro rfl; rw [hf] at hi; cases hi
            exact List.mem_iff_getElem?.mpr ⟨i, by simp only; rw [List.getElem?_set_ne hif]; exact hi⟩
          · exact mem_set_filling (h1 k')
        · intro i j k' a b
          simp only [List.getElem?_set] at a b
          have ha : s.tasks[i]? = some (.filling k') := by grind
          have hb : s.tasks[j]? = some (.filling k') := by grind
          exact h.once i j k' ha hb
        · intro t k' a
          simp only [List.getElem?_set] at a
          have ha : s.tasks[t]? = some (.waiting k' false) := by grind
          exact h.listed t k' ha
        · intro k' ws' t a b
          have hb := h.waits k' ws' t a b
          have hif : f ≠ t := by rintro rfl; rw [hf] at hb; cases hb
          simp only; rw [List.getElem?_set_ne hif]; exact hb
      split at hs
      · cases hs
      · cases hs; exact key _ _ (by simp) (by simp)
      · cases hs; exact key _ _ (by simp) (by simp)
    · cases hs
  | other o =>
    simp only [step] at hs
    split at hs
    · cases hs
    · cases hs
      exact ⟨h.fill, h.once, h.listed, h.waits⟩

theorem inv_run {sz : V → Nat} (es : List (Event K V)) : ∀ {s s' : State K V}, Inv s →
    cleanRun sz s es → run sz s es = some s' → Inv s' := by
  induction es with
  | nil => intro s s' h _ hr; cases hr; exact h
  | cons e es ih =>
    intro s s' h hc hr
    simp only [run] at hr
    split at hr
    · cases hr
    · rename_i s1 hs
      exact ih (inv_step h hc.1 hs) (hc.2 s1 hs) hr

/-- As long as no fill has failed, been cancelled or conflicted: every reader
that waits has exactly one I/O running for its block; whenever that I/O
succeeds the reader is woken; and a reader of a block that is neither cached nor
being read starts an I/O of its own.  (Missing: failing I/Os, for which the
property is false.) -/
theorem C05_readers_served_partial (sz : V → Nat) (cap : Nat) (es : List (Event K V))
    (s : State K V) (hc : cleanRun sz (init cap) es) (hr : run sz (init cap) es = some s) :
    (∀ (t : Nat) k, s.tasks[t]? = some (.waiting k false) →
      ∃ f : Nat, s.tasks[f]? = some (.filling k) ∧
        (∀ f' : Nat, s.tasks[f']? = some (.filling k) → f' = f) ∧
        ∀ v, insert sz s.cache k v ≠ none → ∃ s', step sz s (.fillOk f v) = some s' ∧
          s'.tasks[f]? = some (.ok v) ∧ s'.tasks[t]? = some (.waiting k true)) ∧
    (∀ k s', ¬ ioRunning s k → getRef s.cache k = none → step sz s (.start k) = some s' →
      s'.tasks = s.tasks ++ [.filling k]) := by
  have hinv : Inv s := inv_run es ⟨by simp [init, HMap.get, ioRunning], by simp [init],
    by simp [init], by simp [init, HMap.get]⟩ hc hr
  refine ⟨?_, ?_⟩
  · intro t k ht
    obtain ⟨ws, hws, hm⟩ := hinv.listed t k ht
    obtain ⟨f, hf⟩ := List.mem_iff_getElem?.mp ((hinv.fill k).mp (by simp [hws]))
    have hlt : f < s.tasks.length := (List.getElem?_eq_some_iff.mp hf).1
    refine ⟨f, hf, fun f' hf' => hinv.once f' f k hf' hf, ?_⟩
    intro v hv
    cases hi : insert sz s.cache k v with
    | none => exact absurd hi hv
    | some c =>
      obtain ⟨hok, hall⟩ := signal_all (k := k) (ws := ws) (ts := s.tasks)
        (fun t ht => ⟨false, hinv.waits k ws t hws ht⟩)
      have hsl := signal_length ws s.tasks
      refine ⟨⟨c, HMap.erase s.pending k, (signal ws s.tasks).1.set f (.ok v)⟩, ?_, ?_, ?_⟩
      · simp only [step, hf, hi, hws]
        generalize signal ws s.tasks = sg at hok
        obtain ⟨ts, b⟩ := sg
        simp only at hok
        subst hok
        rfl
      · simp only; rw [List.getElem?_set_self (by omega)]
      · have hft : f ≠ t := by rintro rfl; rw [hf] at ht; cases ht
        simp only; rw [List.getElem?_set_ne hft]; exact hall t hm
  · intro k s' hio href hs
    have hp : HMap.get s.pending k = none := by
      cases hg : HMap.get s.pending k with
      | none => rfl
      | some ws => exact absurd ((hinv.fill k).mp (by simp [hg])) hio
    simp only [step, hp] at hs
    have hg : HMap.get s.cache.store k = none := by simpa [getRef] using href
    unfold get at hs
    rw [hg] at hs
    split at hs
    · cases hs
    · rename_i heq
      split at heq
      · cases heq
      · cases heq
    · cases hs; rfl

/-- Hypotheses met: two readers of one block, one I/O. -/
example : ∃ s : State Nat Nat,
    run (fun _ => 1) (init 4) [.start 7, .start 7] = some s ∧
    s.tasks = [.filling 7, .waiting 7 false] ∧
    cleanRun (fun _ => 1) (init 4 : State Nat Nat) [.start 7, .start 7] := by
  refine ⟨_, rfl, by decide, ?_⟩
  simp [cleanRun, clean]

end Verif.Cache.Fill
