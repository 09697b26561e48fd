import Verif.Progress.Spec
/-!
# Bookkeeping of credit and of the queue
-/

namespace Verif.Progress

variable {s s' : Sys}

theorem sum_map_set (f : PC → Nat) : ∀ (l : List PC) (i : Nat) {p : PC} (q : PC), l[i]? = some p →
    ((l.set i q).map f).sum + f p = (l.map f).sum + f q
  | [], i, p, q, h => by simp at h
  | x :: l, 0, p, q, h => by
    simp only [List.getElem?_cons_zero, Option.some.injEq] at h
    subst h; simp only [List.set_cons_zero, List.map_cons, List.sum_cons]; omega
  | x :: l, i + 1, p, q, h => by
    simp only [List.getElem?_cons_succ] at h
    have := sum_map_set f l i q h
    simp only [List.set_cons_succ, List.map_cons, List.sum_cons]; omega

theorem get_set {l : List PC} {i j : Nat} {q r : PC} (h : (l.set i q)[j]? = some r) :
    (i = j ∧ r = q) ∨ (i ≠ j ∧ l[j]? = some r) := by
  rw [List.getElem?_set] at h
  by_cases hij : i = j
  · left
    rw [if_pos hij] at h
    split at h
    · cases h; exact ⟨hij, rfl⟩
    · cases h
  · right; rw [if_neg hij] at h; exact ⟨hij, h⟩

theorem get_set_self {l : List PC} {i : Nat} {p : PC} (q : PC) (h : l[i]? = some p) :
    (l.set i q)[i]? = some q := by
  have : i < l.length := (List.getElem?_eq_some_iff.1 h).1
  rw [List.getElem?_set, if_pos rfl, if_pos this]

theorem get_set_ne {l : List PC} {i j : Nat} (q : PC) (h : i ≠ j) : (l.set i q)[j]? = l[j]? := by
  rw [List.getElem?_set, if_neg h]

/-- A task that sleeps. -/
def PC.sleeps : PC → Bool
  | .asleep _ _ _ => true
  | _ => false

/-- The books balance, but for `d` bytes about to be repaid; whoever sleeps is in the queue, and the
first of them asks for more than there is. -/
structure Inv (d : Nat) (s : Sys) : Prop where
  conserve : s.supply + (s.tasks.map PC.credit).sum + (s.trees.map Tree.credit).sum + d = s.cap
  sleepers : ∀ i p, s.tasks[i]? = some p → p.sleeps = true → i ∈ s.queue
  head : s.queue = [] ∨ ∃ i q k t w, s.queue = i :: q ∧ s.tasks[i]? = some (.asleep k t w) ∧
    s.supply < w

/-- What `awaken` may change. -/
structure Woken (s s' : Sys) : Prop where
  cap : s'.cap = s.cap
  trees : s'.trees = s.trees
  dirty : s'.dirty = s.dirty
  syncer : s'.syncer = s.syncer
  supply : s'.supply ≤ s.supply
  length : s'.tasks.length = s.tasks.length
  tasks : ∀ (j : Nat) p, s'.tasks[j]? = some p → s.tasks[j]? = some p ∨
    ∃ k t w, s.tasks[j]? = some (PC.asleep k t w) ∧ p = granted k t w ∧ w ≤ s.supply

theorem granted_credit (k t w) : (granted k t w).credit = w := by cases k <;> rfl
theorem granted_sleeps (k t w) : (granted k t w).sleeps = false := by cases k <;> rfl

theorem awaken_inv : ∀ (q : List Nat) (s : Sys) {d : Nat},
    s.supply + (s.tasks.map PC.credit).sum + (s.trees.map Tree.credit).sum + d = s.cap →
    (∀ i p, s.tasks[i]? = some p → p.sleeps = true → i ∈ q) → Inv d (awaken q s) ∧ Woken s (awaken q s)
  | [], s, d, h1, h2 => by
    refine ⟨⟨h1, ?_, .inl rfl⟩, rfl, rfl, rfl, rfl, Nat.le_refl _, rfl, fun _ _ h => .inl h⟩
    intro i p hi hp; exact h2 i p hi hp
  | i :: q, s, d, h1, h2 => by
    have other : (∀ k t w, s.tasks[i]? ≠ some (.asleep k t w)) →
        ∀ j p, s.tasks[j]? = some p → p.sleeps = true → j ∈ q := by
      intro hn j p hj hp
      rcases List.mem_cons.1 (h2 j p hj hp) with rfl | h
      · cases p <;> simp only [PC.sleeps] at hp <;> try contradiction
        exact absurd hj (hn _ _ _)
      · exact h
    unfold awaken
    split
    · rename_i k t w hi
      split
      · rename_i hlt
        refine ⟨⟨h1, h2, .inr ⟨i, q, k, t, w, rfl, hi, hlt⟩⟩, rfl, rfl, rfl, rfl, Nat.le_refl _, rfl,
          fun _ _ h => .inl h⟩
      · rename_i hle
        have hs := sum_map_set PC.credit s.tasks i (granted k t w) hi
        rw [granted_credit] at hs
        simp only [PC.credit] at hs
        have ih := awaken_inv q { s with
          supply := s.supply - w, tasks := s.tasks.set i (granted k t w) } (d := d)
          (by simp only; omega) (by
            intro j p hj hp
            rcases get_set hj with ⟨rfl, rfl⟩ | ⟨hne, hj⟩
            · rw [granted_sleeps] at hp; cases hp
            · rcases List.mem_cons.1 (h2 j p hj hp) with rfl | h
              · exact absurd rfl hne
              · exact h)
        refine ⟨ih.1, ih.2.cap, ih.2.trees, ih.2.dirty, ih.2.syncer, ?_, ?_, ?_⟩
        · have := ih.2.supply; simp only at this; omega
        · rw [ih.2.length]; simp only [List.length_set]
        · intro j p hj
          rcases ih.2.tasks j p hj with h | ⟨k', t', w', h, rfl, hw⟩
          · rcases get_set h with ⟨rfl, rfl⟩ | ⟨_, h⟩
            · exact .inr ⟨k, t, w, hi, rfl, by omega⟩
            · exact .inl h
          · rcases get_set h with ⟨_, h0⟩ | ⟨_, h⟩
            · have := granted_sleeps k t w
              rw [← h0] at this; cases this
            · exact .inr ⟨k', t', w', h, rfl, by simp only at hw; omega⟩
    · rename_i hn
      exact awaken_inv q s h1 (other fun k t w => hn k t w)

theorem Woken.refl (s : Sys) : Woken s s :=
  ⟨rfl, rfl, rfl, rfl, Nat.le_refl _, rfl, fun _ _ h => .inl h⟩

/-- Repaying `n` bytes. -/
theorem repay_inv {n : Nat} (h : Inv n s) :
    Inv 0 (repay s n) ∧ Woken { s with supply := s.supply + n } (repay s n) := by
  unfold repay
  split
  · rename_i h0; subst h0; exact ⟨h, Woken.refl _⟩
  · have hc := h.conserve
    exact awaken_inv s.queue { s with supply := s.supply + n } (d := 0) (by simp only; omega) h.sleepers

/-- A task that does not sleep goes on, and still does not. -/
theorem Inv.set {d e : Nat} (h : Inv d s) {i : Nat} {p : PC} (hi : s.tasks[i]? = some p)
    (hp : p.sleeps = false) (q : PC) (hq : q.sleeps = false) (hd : q.credit + e = p.credit + d) :
    Inv e { s with tasks := s.tasks.set i q } := by
  have hs := sum_map_set PC.credit s.tasks i q hi
  have hc := h.conserve
  refine ⟨by simp only; omega, ?_, ?_⟩
  · intro j r hj hr
    rcases get_set hj with ⟨rfl, rfl⟩ | ⟨_, hj⟩
    · rw [hq] at hr; cases hr
    · exact h.sleepers j r hj hr
  · rcases h.head with h0 | ⟨j, l, k, t, w, h1, h2, h3⟩
    · exact .inl h0
    · refine .inr ⟨j, l, k, t, w, h1, ?_, h3⟩
      have hne : i ≠ j := by
        rintro rfl; rw [hi] at h2; cases h2; cases hp
      simp only [get_set_ne q hne, h2]

theorem Inv.congr {d : Nat} (h : Inv d s) (h1 : s'.cap = s.cap) (h2 : s'.supply = s.supply)
    (h3 : s'.tasks = s.tasks) (h4 : (s'.trees.map Tree.credit).sum = (s.trees.map Tree.credit).sum)
    (h5 : s'.queue = s.queue) : Inv d s' := by
  have hc := h.conserve
  refine ⟨by rw [h1, h2, h3, h4]; exact hc, by rw [h3, h5]; exact h.sleepers, by
    rw [h3, h5, h2]; exact h.head⟩

theorem borrow_inv (h : Inv 0 s) {i : Nat} {p : PC} (hi : s.tasks[i]? = some p)
    (hp : p.sleeps = false) (hc0 : p.credit = 0) (k : Kind) (t w : Nat) : Inv 0 (borrow s i k t w) := by
  have hc := h.conserve
  unfold borrow
  split
  · rename_i hcond
    have hs := sum_map_set PC.credit s.tasks i (.asleep k t w) hi
    have h0 : PC.credit (.asleep k t w) = 0 := rfl
    refine ⟨by simp only; omega, ?_, ?_⟩
    · intro j r hj hr
      rcases get_set hj with ⟨rfl, rfl⟩ | ⟨_, hj⟩
      · exact List.mem_append_right _ (List.mem_singleton.2 rfl)
      · exact List.mem_append_left _ (h.sleepers j r hj hr)
    · right
      rcases h.head with h0 | ⟨j, l, k', t', w', h1, h2, h3⟩
      · refine ⟨i, [], k, t, w, by simp only [h0, List.nil_append], get_set_self _ hi, ?_⟩
        rcases hcond with hlt | hne
        · exact hlt
        · exact absurd h0 hne
      · refine ⟨j, l ++ [i], k', t', w', by simp only [h1, List.cons_append], ?_, h3⟩
        have hne : i ≠ j := by
          rintro rfl; rw [hi] at h2; cases h2; cases hp
        simp only [get_set_ne _ hne, h2]
  · rename_i hcond
    have hs := sum_map_set PC.credit s.tasks i (granted k t w) hi
    rw [granted_credit] at hs
    have h1 : ¬ s.supply < w := fun h => hcond (.inl h)
    have h2 : s.queue = [] := Decidable.byContradiction fun h => hcond (.inr h)
    refine ⟨by simp only; omega, ?_, .inl h2⟩
    intro j r hj hr
    rcases get_set hj with ⟨rfl, rfl⟩ | ⟨_, hj⟩
    · rw [granted_sleeps] at hr; cases hr
    · exact h.sleepers j r hj hr

theorem sum_flush (l : List Tree) :
    ((l.map fun x => if x.cached then { x with credit := 0 } else x).map Tree.credit).sum +
      (l.map fun x => if x.cached then x.credit else 0).sum = (l.map Tree.credit).sum := by
  induction l with
  | nil => rfl
  | cons x l ih =>
    simp only [List.map_cons, List.sum_cons]
    split
    · dsimp only; omega
    · omega

theorem flushAll_inv (h : Inv 0 s) : Inv 0 (flushAll s) := by
  have hc := h.conserve
  have hf := sum_flush s.trees
  refine And.left (repay_inv ?_)
  exact ⟨by dsimp only; omega, h.sleepers, h.head⟩

theorem sum_upd (f : Tree → Tree) : ∀ (l : List Tree) (t : Nat) {x : Tree}, findTree l t = some x →
    ((updTree f l t).map Tree.credit).sum + x.credit = (l.map Tree.credit).sum + (f x).credit
  | [], t, x, h => by cases h
  | y :: l, t, x, h => by
    unfold findTree at h
    unfold updTree
    split at h
    · rename_i he; cases h
      rw [if_pos he]; simp only [List.map_cons, List.sum_cons]; omega
    · rename_i he
      rw [if_neg he]
      have := sum_upd f l t h
      simp only [List.map_cons, List.sum_cons]; omega

theorem sum_upd_same (f : Tree → Tree) (hf : ∀ x, (f x).credit = x.credit) : ∀ (l : List Tree) (t : Nat),
    ((updTree f l t).map Tree.credit).sum = (l.map Tree.credit).sum
  | [], t => rfl
  | y :: l, t => by
    unfold updTree
    split
    · simp only [List.map_cons, List.sum_cons, hf]
    · simp only [List.map_cons, List.sum_cons, sum_upd_same f hf l t]

theorem doWork_inv {c : Nat} (h : Inv c s) (k : Kind) (t n m : Nat) : Inv 0 (doWork s k t c n m) := by
  have hc := h.conserve
  unfold doWork
  split
  · exact (repay_inv h).1
  · rename_i x hx
    split
    · have := sum_upd (fun x => { x with credit := 0 }) s.trees t hx
      simp only at this
      refine And.left (repay_inv ?_)
      exact ⟨by dsimp only; omega, h.sleepers, h.head⟩
    · have := sum_upd (fun x => { x with credit := x.credit - min m x.credit + min n c }) s.trees t hx
      simp only at this
      refine And.left (repay_inv ?_)
      exact ⟨by dsimp only; omega, h.sleepers, h.head⟩

theorem opened_sleeps (k t w) : (opened k t w).sleeps = false := by cases k <;> rfl
theorem opened_credit (k t w) : (opened k t w).credit = 0 := by cases k <;> rfl

theorem sum_append (l : List Tree) (x : Tree) :
    ((l ++ [x]).map Tree.credit).sum = (l.map Tree.credit).sum + x.credit := by
  simp

theorem stepTask_inv (h : Inv 0 s) {i : Nat} {p : PC} (hi : s.tasks[i]? = some p) {n m : Nat}
    (hs : stepTask s i p n m = some s') : Inv 0 s' := by
  have go : ∀ q, p.sleeps = false → q.sleeps = false → q.credit = p.credit →
      Inv 0 { s with tasks := s.tasks.set i q } := fun q h1 h2 h3 => h.set hi h1 q h2 (by omega)
  unfold stepTask at hs
  dsimp only at hs
  split at hs
  · cases hs
  · split at hs
    · cases hs; exact go _ rfl rfl rfl
    · cases hs
  · split at hs
    · split at hs
      · cases hs; exact go _ rfl rfl rfl
      · cases hs
        split
        · exact go _ rfl (opened_sleeps _ _ _) (opened_credit _ _ _)
        · exact go _ rfl rfl rfl
    · cases hs
  · split at hs
    · split at hs
      · cases hs
        exact (go _ rfl (opened_sleeps _ _ _) (opened_credit _ _ _)).congr rfl rfl rfl
          (by simp only [sum_append]; rfl) rfl
      · cases hs; exact go _ rfl (opened_sleeps _ _ _) (opened_credit _ _ _)
    · cases hs
  · split at hs
    · cases hs; exact go _ rfl rfl rfl
    · cases hs
  · split at hs
    · cases hs; exact go _ rfl rfl rfl
    · cases hs
  · cases hs
    exact (go (.borrowing .destroy _ _) rfl rfl rfl).congr rfl rfl rfl 
      (sum_upd_same (fun x => { x with cached := false }) (fun _ => rfl) _ _) rfl
  · cases hs; exact borrow_inv h hi rfl rfl _ _ _
  · cases hs
  · split at hs
    · cases hs; exact go _ rfl rfl rfl
    · cases hs
  · cases hs
    exact doWork_inv (h.set hi rfl _ rfl (by simp [PC.credit])) _ _ _ _
  · split at hs
    · cases hs; exact go _ rfl rfl rfl
    · cases hs
  · cases hs; exact go _ rfl rfl rfl
  · split at hs
    · cases hs; exact (go .syncTxg rfl rfl rfl).congr rfl rfl rfl rfl rfl
    · cases hs; exact go _ rfl rfl rfl
  · split at hs
    · cases hs; exact go _ rfl rfl rfl
    · cases hs
  · split at hs
    · cases hs; exact go _ rfl rfl rfl
    · cases hs
  · cases hs; exact flushAll_inv (go _ rfl rfl rfl)
  · cases hs; exact go _ rfl rfl rfl
  all_goals cases hs

theorem stepSyncer_inv (h : Inv 0 s) (hs : stepSyncer s = some s') : Inv 0 s' := by
  have go : ∀ q, Inv 0 { s with syncer := q } := fun q => h.congr rfl rfl rfl rfl rfl
  unfold stepSyncer at hs
  split at hs
  · split at hs
    · cases hs; exact go _
    · cases hs
  · split at hs
    · cases hs; exact go _
    · cases hs
  · cases hs; exact flushAll_inv (go _)
  · cases hs; exact go _
  · split at hs
    · cases hs; exact go _
    · cases hs
  · split at hs
    · cases hs; exact go _
    · cases hs
  · cases hs; exact flushAll_inv (go _)
  · cases hs

theorem start_credit (c : Call) : c.start.credit = 0 := by cases c <;> rfl
theorem start_sleeps (c : Call) : c.start.sleeps = false := by cases c <;> rfl

theorem get_append {l : List PC} {q r : PC} {j : Nat} (h : (l ++ [q])[j]? = some r) :
    l[j]? = some r ∨ r = q := by
  rw [List.getElem?_append] at h
  split at h
  · exact .inl h
  · right
    rw [List.getElem?_singleton] at h
    split at h
    · cases h; rfl
    · cases h

theorem get_append_left {l : List PC} {q r : PC} {j : Nat} (h : l[j]? = some r) :
    (l ++ [q])[j]? = some r := by
  rw [List.getElem?_append_left (List.getElem?_eq_some_iff.1 h).1]; exact h

theorem step_inv (h : Inv 0 s) {a : Act} (hs : step s a = some s') : Inv 0 s' := by
  unfold step at hs
  split at hs
  · rename_i c
    cases hs
    have hc := h.conserve
    refine ⟨?_, ?_, ?_⟩
    · simp only [List.map_append, List.sum_append, List.map_cons, List.map_nil, List.sum_cons,
        List.sum_nil, start_credit]
      omega
    · intro j p hj hp
      rcases get_append hj with hj | rfl
      · exact h.sleepers j p hj hp
      · rw [start_sleeps] at hp; cases hp
    · rcases h.head with h0 | ⟨j, l, k, t, w, h1, h2, h3⟩
      · exact .inl h0
      · exact .inr ⟨j, l, k, t, w, h1, get_append_left h2, h3⟩
  · split at hs
    · cases hs
    · rename_i p hi; exact stepTask_inv h hi hs
  · split at hs
    · cases hs; exact h.congr rfl rfl rfl rfl rfl
    · cases hs
  · split at hs
    · cases hs; exact h.congr rfl rfl rfl rfl rfl
    · cases hs
  · exact stepSyncer_inv h hs

theorem init_inv (cap : Nat) : Inv 0 (init cap) :=
  ⟨by simp [init], by intro i p h; simp [init] at h, .inl rfl⟩

theorem reach_inv {ok : Call → Prop} {cap : Nat} (h : Reach ok cap s) : Inv 0 s := by
  induction h with
  | init => exact init_inv cap
  | step a _ _ hs ih => exact step_inv ih hs

end Verif.Progress
