import Verif.Progress.Lemmas
/-!
# Ordinary calls finish
-/

namespace Verif.Progress

variable {s s' : Sys} {cap : Nat}

/-- Where ordinary calls may stand. -/
def PC.plain (cap : Nat) : PC → Bool
  | .opening .write _ w | .installing .write _ w | .borrowing .write _ w | .asleep .write _ w =>
    decide (w ≤ cap)
  | .txg .write _ _ | .work .write _ _ => true
  | .done | .cleanTxg | .clean => true
  | .syncStart | .syncTxg | .syncFs | .syncFlush | .syncRest => true
  | _ => false

/-- Where the syncer may stand. -/
def PC.atSyncer : PC → Bool
  | .done | .syncTxg | .syncFs | .syncFlush | .syncRest => true
  | .flushTxg | .flushFs | .flushing => true
  | _ => false

/-- How far a task is from its end. -/
def PC.weight : PC → Nat
  | .opening _ _ _ => 7
  | .installing _ _ _ => 6
  | .borrowing _ _ _ => 5
  | .asleep _ _ _ => 4
  | .txg _ _ _ => 3
  | .work _ _ _ => 2
  | .cleanTxg => 2
  | .clean => 1
  | .syncStart => 5
  | .syncTxg => 4
  | .syncFs => 3
  | .syncFlush => 2
  | .syncRest => 1
  | .flushTxg => 3
  | .flushFs => 2
  | .flushing => 1
  | _ => 0

def Sys.weight (s : Sys) : Nat := s.syncer.weight + (s.tasks.map PC.weight).sum

/-- What ordinary calls keep. -/
structure Plain (cap : Nat) (s : Sys) : Prop where
  inv : Inv 0 s
  size : s.cap = cap
  tasks : ∀ (i : Nat) (p : PC), s.tasks[i]? = some p → p.plain cap = true
  syncer : s.syncer.atSyncer = true
  cached : ∀ x ∈ s.trees, x.cached = true

/-- `dirty` is set, or nobody needs it to be. -/
def Flushes (s : Sys) : Prop := s.dirty = true ∨ ∀ p ∈ s.tasks, p.waits = false

theorem mem_get {l : List PC} {p : PC} (h : p ∈ l) : ∃ i : Nat, l[i]? = some p := by
  obtain ⟨i, hi, rfl⟩ := List.mem_iff_getElem.1 h
  exact ⟨i, List.getElem?_eq_getElem hi⟩

theorem get_mem {l : List PC} {p : PC} {i : Nat} (h : l[i]? = some p) : p ∈ l :=
  List.mem_of_getElem? h

theorem granted_plain {k : Kind} {t w : Nat} (h : (PC.asleep k t w).plain cap = true) :
    (granted k t w).plain cap = true := by
  cases k <;> first | rfl | cases h

theorem granted_weight (k : Kind) (t w : Nat) : (granted k t w).weight < (PC.asleep k t w).weight := by
  cases k <;> simp [granted, PC.weight]

theorem granted_waits (k : Kind) (t w : Nat) : (granted k t w).waits = false := by cases k <;> rfl

theorem Woken.plain (h : Woken s s') (hp : ∀ (i : Nat) (p : PC), s.tasks[i]? = some p → p.plain cap = true) :
    ∀ (i : Nat) (p : PC), s'.tasks[i]? = some p → p.plain cap = true := by
  intro i p hi
  rcases h.tasks i p hi with h | ⟨k, t, w, h, rfl, _⟩
  · exact hp i p h
  · exact granted_plain (hp i _ h)

theorem Woken.flushes (h : Woken s s') (hf : Flushes s) : Flushes s' := by
  rcases hf with hd | hw
  · exact .inl (h.dirty.trans hd)
  · right
    intro p hp
    obtain ⟨i, hi⟩ := mem_get hp
    rcases h.tasks i p hi with h | ⟨k, t, w, h, rfl, _⟩
    · exact hw p (get_mem h)
    · exact granted_waits k t w

theorem awaken_weight : ∀ (q : List Nat) (s : Sys),
    ((awaken q s).tasks.map PC.weight).sum ≤ (s.tasks.map PC.weight).sum
  | [], s => Nat.le_refl _
  | i :: q, s => by
    unfold awaken
    split
    · rename_i k t w hi
      split
      · exact Nat.le_refl _
      · have h1 := sum_map_set PC.weight s.tasks i (granted k t w) hi
        have h2 := granted_weight k t w
        have h3 := awaken_weight q { s with
          supply := s.supply - w, tasks := s.tasks.set i (granted k t w) }
        simp only at h3; omega
    · exact awaken_weight q s

/-- If the first in the queue can be served, something happens. -/
theorem awaken_lt {i : Nat} {q : List Nat} {k : Kind} {t w : Nat}
    (hi : s.tasks[i]? = some (.asleep k t w)) (hw : w ≤ s.supply) :
    ((awaken (i :: q) s).tasks.map PC.weight).sum < (s.tasks.map PC.weight).sum := by
  unfold awaken
  rw [hi]
  dsimp only
  rw [if_neg (by omega)]
  have h1 := sum_map_set PC.weight s.tasks i (granted k t w) hi
  have h2 := granted_weight k t w
  have h3 := awaken_weight q { s with supply := s.supply - w, tasks := s.tasks.set i (granted k t w) }
  simp only at h3; omega

theorem repay_weight (s : Sys) (n : Nat) :
    ((repay s n).tasks.map PC.weight).sum ≤ (s.tasks.map PC.weight).sum := by
  unfold repay
  split
  · exact Nat.le_refl _
  · exact awaken_weight _ _

/-- What a step of an ordinary call, or of the syncer, does. -/
structure Nearer (cap : Nat) (s s' : Sys) : Prop where
  plain : Plain cap s'
  flushes : Flushes s → Flushes s'
  weight : s'.weight < s.weight

theorem repay_nearer {n : Nat} {s₀ : Sys} (hi : Inv n s) (hc : s.cap = cap)
    (ht : ∀ (i : Nat) (p : PC), s.tasks[i]? = some p → p.plain cap = true) (hs : s.syncer.atSyncer = true)
    (hx : ∀ x ∈ s.trees, x.cached = true) (hf : Flushes s₀ → Flushes s) (hw : s.weight < s₀.weight) :
    Nearer cap s₀ (repay s n) := by
  obtain ⟨h1, h2⟩ := repay_inv hi
  refine ⟨⟨h1, h2.cap.trans hc, h2.plain ht, by rw [h2.syncer]; exact hs, by rw [h2.trees]; exact hx⟩,
    fun h => h2.flushes (hf h), ?_⟩
  have h3 := repay_weight s n
  have h4 := h2.syncer
  simp only at h4
  simp only [Sys.weight, h4] at *
  omega

theorem upd_cached (f : Tree → Tree) (hf : ∀ x, (f x).cached = x.cached) : ∀ (l : List Tree) (t : Nat),
    (∀ x ∈ l, x.cached = true) → ∀ x ∈ updTree f l t, x.cached = true
  | [], t, h => h
  | y :: l, t, h => by
    unfold updTree
    split
    · intro x hx
      rcases List.mem_cons.1 hx with rfl | hx
      · rw [hf]; exact h y (List.mem_cons_self)
      · exact h x (List.mem_cons_of_mem _ hx)
    · intro x hx
      rcases List.mem_cons.1 hx with rfl | hx
      · exact h _ (List.mem_cons_self)
      · exact upd_cached f hf l t (fun x hx => h x (List.mem_cons_of_mem _ hx)) x hx

theorem flushAll_nearer {s₀ : Sys} (h : Plain cap s) (hf : Flushes s₀ → Flushes s) (hw : s.weight < s₀.weight) :
    Nearer cap s₀ (flushAll s) := by
  have hc := h.inv.conserve
  have hm := sum_flush s.trees
  refine repay_nearer ?_ ?_ ?_ ?_ ?_ ?_ ?_
  · exact ⟨by dsimp only; omega, h.inv.sleepers, h.inv.head⟩
  · exact h.size
  · exact h.tasks
  · exact h.syncer
  · intro x hx
    obtain ⟨y, hy, rfl⟩ := List.mem_map.1 hx
    rw [if_pos (h.cached y hy)]; exact h.cached y hy
  · exact hf
  · exact hw

/-- `Flushes` after one task has gone on. -/
theorem Flushes.set (hf : Flushes s) {i : Nat} {p q : PC} (hi : s.tasks[i]? = some p)
    (hq : q.waits = true → p.waits = true) : Flushes { s with tasks := s.tasks.set i q } := by
  rcases hf with hd | hw
  · exact .inl hd
  · right
    intro r hr
    obtain ⟨j, hj⟩ := mem_get hr
    rcases get_set hj with ⟨rfl, rfl⟩ | ⟨_, hj⟩
    · cases hr' : r.waits with
      | false => rfl
      | true => rw [hw p (get_mem hi)] at hq; cases hq hr'
    · exact hw r (get_mem hj)

theorem Plain.set (h : Plain cap s) {i : Nat} {p : PC} (hi : s.tasks[i]? = some p)
    (hp : p.sleeps = false) (q : PC) (hq : q.sleeps = false) (hd : q.credit = p.credit)
    (hl : q.plain cap = true) : Plain cap { s with tasks := s.tasks.set i q } := by
  refine ⟨h.inv.set hi hp q hq (by omega), h.size, ?_, h.syncer, h.cached⟩
  intro j r hj
  rcases get_set hj with ⟨rfl, rfl⟩ | ⟨_, hj⟩
  · exact hl
  · exact h.tasks j r hj

theorem weight_set {i : Nat} {p : PC} (hi : s.tasks[i]? = some p) (q : PC) (hw : q.weight < p.weight) :
    Sys.weight { s with tasks := s.tasks.set i q } < s.weight := by
  have := sum_map_set PC.weight s.tasks i q hi
  simp only [Sys.weight]; omega

theorem Plain.nearer (h : Plain cap s) {i : Nat} {p : PC} (hi : s.tasks[i]? = some p)
    (hp : p.sleeps = false) (q : PC) (hq : q.sleeps = false) (hd : q.credit = p.credit)
    (hl : q.plain cap = true) (hw : q.weight < p.weight) (hx : q.waits = true → p.waits = true) :
    Nearer cap s { s with tasks := s.tasks.set i q } :=
  ⟨h.set hi hp q hq hd hl, fun hf => hf.set hi hx, weight_set hi q hw⟩

theorem borrow_nearer (h : Plain cap s) {i : Nat} {t w : Nat}
    (hi : s.tasks[i]? = some (.borrowing .write t w)) : Nearer cap s (borrow s i .write t w) := by
  have hinv := borrow_inv h.inv hi rfl rfl .write t w
  have hp := h.tasks i _ hi
  unfold borrow at *
  by_cases hb : s.supply < w ∨ s.queue ≠ []
  · rw [if_pos hb] at *
    refine ⟨⟨hinv, h.size, ?_, h.syncer, h.cached⟩, ?_, weight_set hi (.asleep .write t w) (by simp [PC.weight, opened])⟩
    · intro j r hj
      rcases get_set hj with ⟨rfl, rfl⟩ | ⟨_, hj⟩
      · exact hp
      · exact h.tasks j r hj
    · exact fun hf => hf.set hi (q := .asleep .write t w) (fun _ => rfl)
  · rw [if_neg hb] at *
    refine ⟨⟨hinv, h.size, ?_, h.syncer, h.cached⟩, ?_, weight_set hi (.txg .write t w) (by simp [PC.weight, opened])⟩
    · intro j r hj
      rcases get_set hj with ⟨rfl, rfl⟩ | ⟨_, hj⟩
      · rfl
      · exact h.tasks j r hj
    · exact fun hf => hf.set hi (q := .txg .write t w) (fun h => by cases h)

theorem work_nearer (h : Plain cap s) {i : Nat} {t c : Nat}
    (hi : s.tasks[i]? = some (.work .write t c)) (n m : Nat) :
    Nearer cap s (doWork { s with tasks := s.tasks.set i .done } .write t c n m) := by
  have h1 : Inv c { s with tasks := s.tasks.set i .done } :=
    h.inv.set hi rfl .done rfl (by simp [PC.credit])
  have h2 : ∀ (j : Nat) (p : PC), (s.tasks.set i .done)[j]? = some p → p.plain cap = true := by
    intro j r hj
    rcases get_set hj with ⟨rfl, rfl⟩ | ⟨_, hj⟩
    · rfl
    · exact h.tasks j r hj
  have h3 : Flushes s → Flushes { s with tasks := s.tasks.set i .done } := fun hf => hf.set hi (q := .done) (fun h => by cases h)
  have h4 := weight_set hi .done (by simp [PC.weight, opened])
  unfold doWork
  split
  · exact repay_nearer h1 h.size h2 h.syncer h.cached h3 h4
  · rename_i x hx
    have hc := h1.conserve
    have hm := sum_upd (fun x => { x with credit := x.credit - min m x.credit + min n c }) s.trees t hx
    simp only at hm hc
    refine repay_nearer ?_ h.size h2 h.syncer ?_ h3 h4
    · exact ⟨by dsimp only; omega, h1.sleepers, h1.head⟩
    · exact upd_cached (fun x => { x with credit := x.credit - min m x.credit + min n c }) (fun _ => rfl) _ _ h.cached

/-- Every possible step of an ordinary call, other than the start of a sync, brings the end nearer. -/
theorem stepTask_nearer (h : Plain cap s) {i : Nat} {p : PC}
    (hi : s.tasks[i]? = some p) (hne : p ≠ .syncStart) {n m : Nat}
    (hs : stepTask s i p n m = some s') : Nearer cap s s' := by
  have hp := h.tasks i p hi
  have go := fun hp => h.nearer hi hp
  cases p with
  | opening k t w =>
    cases k <;> try cases hp
    simp only [stepTask] at hs
    split at hs
    · split at hs
      · cases hs; exact go rfl _ rfl rfl hp (by simp [PC.weight, opened]) (fun _ => rfl)
      · cases hs
        split
        · exact go rfl _ rfl rfl hp (by simp [PC.weight, opened]) (fun _ => rfl)
        · exact go rfl _ rfl rfl rfl (by simp [PC.weight, opened]) (fun h => by cases h)
    · cases hs
  | installing k t w =>
    cases k <;> try cases hp
    have hn : Nearer cap s { s with tasks := s.tasks.set i (.borrowing .write t w) } :=
      go rfl _ rfl rfl hp (by simp [PC.weight, opened]) (fun _ => rfl)
    simp only [stepTask] at hs
    split at hs
    · split at hs
      · cases hs
        refine ⟨⟨hn.plain.inv.congr rfl rfl rfl (by simp only [sum_append]; rfl) rfl, h.size,
          hn.plain.tasks, h.syncer, ?_⟩, hn.flushes, hn.weight⟩
        intro x hx
        rcases List.mem_append.1 hx with hx | hx
        · exact h.cached x hx
        · rw [List.mem_singleton.1 hx]
      · cases hs; exact hn
    · cases hs
  | borrowing k t w =>
    cases k <;> try cases hp
    simp only [stepTask] at hs
    cases hs
    exact borrow_nearer h hi
  | asleep k t w => simp only [stepTask] at hs; cases hs
  | txg k t c =>
    cases k <;> try cases hp
    simp only [stepTask] at hs
    split at hs
    · cases hs; exact go rfl _ rfl rfl rfl (by simp [PC.weight, opened]) (fun h => by cases h)
    · cases hs
  | work k t c =>
    cases k <;> try cases hp
    simp only [stepTask] at hs
    cases hs
    exact work_nearer h hi n m
  | cleanTxg =>
    simp only [stepTask] at hs
    split at hs
    · cases hs; exact go rfl _ rfl rfl rfl (by simp [PC.weight, opened]) (fun h => by cases h)
    · cases hs
  | clean =>
    simp only [stepTask] at hs
    cases hs; exact go rfl _ rfl rfl rfl (by simp [PC.weight, opened]) (fun h => by cases h)
  | syncStart => exact absurd rfl hne
  | syncTxg =>
    simp only [stepTask] at hs
    split at hs
    · cases hs; exact go rfl _ rfl rfl rfl (by simp [PC.weight, opened]) (fun h => by cases h)
    · cases hs
  | syncFs =>
    simp only [stepTask] at hs
    split at hs
    · cases hs; exact go rfl _ rfl rfl rfl (by simp [PC.weight, opened]) (fun h => by cases h)
    · cases hs
  | syncFlush =>
    simp only [stepTask] at hs
    cases hs
    have hn := go rfl .syncRest rfl rfl rfl (by simp [PC.weight, opened]) (fun h => by cases h)
    exact flushAll_nearer hn.plain hn.flushes hn.weight
  | syncRest =>
    simp only [stepTask] at hs
    cases hs; exact go rfl _ rfl rfl rfl (by simp [PC.weight, opened]) (fun h => by cases h)
  | done => simp only [stepTask] at hs; cases hs
  | _ => cases hp

/-- The same for the syncer. -/
theorem stepSyncer_nearer (h : Plain cap s) (hs : stepSyncer s = some s') :
    Nearer cap s s' := by
  have go : ∀ q : PC, q.atSyncer = true → q.weight < s.syncer.weight →
      Nearer cap s { s with syncer := q } := fun q h1 h2 =>
    ⟨⟨h.inv.congr rfl rfl rfl rfl rfl, h.size, h.tasks, h1, h.cached⟩, id, by simp only [Sys.weight]; omega⟩
  unfold stepSyncer at hs
  split at hs
  all_goals rename_i he
  · split at hs
    · cases hs; exact go _ rfl (by rw [he]; simp [PC.weight])
    · cases hs
  · split at hs
    · cases hs; exact go _ rfl (by rw [he]; simp [PC.weight])
    · cases hs
  · cases hs
    have hn := go .syncRest rfl (by rw [he]; simp [PC.weight])
    exact flushAll_nearer hn.plain hn.flushes hn.weight
  · cases hs; exact go _ rfl (by rw [he]; simp [PC.weight])
  · split at hs
    · cases hs; exact go _ rfl (by rw [he]; simp [PC.weight])
    · cases hs
  · split at hs
    · cases hs; exact go _ rfl (by rw [he]; simp [PC.weight])
    · cases hs
  · cases hs
    have hn := go .done rfl (by rw [he]; simp [PC.weight])
    exact flushAll_nearer hn.plain hn.flushes hn.weight
  · cases hs

end Verif.Progress
