import Verif.WriteBack.Model

/-! Helper lemmas for the WriteBack properties. -/

namespace Verif.WriteBack

/-! ### Sums over lists under `set` -/

theorem sum_set (f : α → Int) (l : List α) (i : Nat) (a b : α) (h : l[i]? = some a) :
    ((l.set i b).map f).sum = (l.map f).sum - f a + f b := by
  induction l generalizing i with
  | nil => simp at h
  | cons x xs ih =>
    cases i with
    | zero => simp at h; subst h; simp; omega
    | succ i =>
      simp at h
      have := ih i h
      simp only [List.set_cons_succ, List.map_cons, List.sum_cons]
      omega

theorem get_set (l : List α) (i j : Nat) (a b : α) (h : l[i]? = some a) :
    (l.set i b)[j]? = if i = j then some b else l[j]? := by
  have hi : i < l.length := by
    rcases Nat.lt_or_ge i l.length with h' | h'
    · exact h'
    · simp [List.getElem?_eq_none h'] at h
  rw [List.getElem?_set]
  split <;> simp_all

/-! ### Amounts attached to a thread -/

/-- Credit tentatively subtracted from the supply by a thread in mid-method. -/
def tent : PC → Int
  | .borrowFailed w _ | .borrowLocked w _ | .awakeShort w | .awakeGot w | .awakeRefund w => w
  | _ => 0

/-- Like `tent`, without the credit the waker is about to hand to a sleeper. -/
def res : PC → Int
  | .borrowFailed w _ | .borrowLocked w _ | .awakeShort w | .awakeRefund w => w
  | _ => 0

/-- Credit already granted to a sleeping borrower that has not yet polled. -/
def sent : PC → Int
  | .woken w => w
  | _ => 0

def PC.locked : PC → Bool
  | .borrowLocked .. | .borrowAdded _ | .borrowQueued _ | .awakening | .awakeShort _
  | .awakeGot _ | .awakeRefund _ => true
  | _ => false

def PC.amt : PC → Int
  | .borrowTry w | .borrowFailed w _ | .borrowLocked w _ | .borrowAdded w | .borrowQueued w
  | .sleeping w | .woken w | .awakeShort w | .awakeGot w | .awakeRefund w => w
  | _ => 0

/-- Sum over all threads. -/
def tsum (f : Thread → Int) (s : St) : Int := (s.threads.map f).sum

def even (s : St) : Int := s.supply - s.supply % 2

structure Inv (s : St) : Prop where
  lockHolder : ∀ (i : Nat) (t : Thread), s.threads[i]? = some t → (t.pc.locked = true ↔ s.lock = some i)
  live : ∀ x ∈ s.sleepers, x.alive = true →
    ∃ t, s.threads[x.tid]? = some t ∧ (t.pc = .sleeping x.wants ∨ t.pc = .borrowQueued x.wants)
  liveNodup : ((s.sleepers.filter (·.alive)).map (·.tid)).Nodup
  gotHead : ∀ (i : Nat) (t : Thread) (w : Int), s.threads[i]? = some t → t.pc = .awakeGot w →
    ∃ x q, s.sleepers = x :: q ∧ x.wants = w
  amts : ∀ (i : Nat) (t : Thread), s.threads[i]? = some t → 0 ≤ t.pc.amt ∧ t.pc.amt % 2 = 0 ∧ t.pc.amt ≤ s.capacity
  qamts : ∀ x ∈ s.sleepers, 0 ≤ x.wants ∧ x.wants % 2 = 0 ∧ x.wants ≤ s.capacity
  helds : ∀ (i : Nat) (t : Thread), s.threads[i]? = some t → 0 ≤ t.held ∧ t.pc ≠ PC.panicked
  leak : 0 ≤ s.leaked
  capEven : s.capacity % 2 = 0
  money : even s + tsum (fun t => t.held) s + tsum (fun t => tent t.pc) s
      + tsum (fun t => sent t.pc) s + s.leaked = s.capacity
  solvent : 0 ≤ even s + tsum (fun t => res t.pc) s

theorem inv_init (cap n : Nat) : Inv (init cap n) := by
  have hz : ∀ (f : Thread → Int), f ⟨.idle, 0⟩ = 0 → tsum f (init cap n) = 0 := by
    intro f hf
    simp only [tsum, init]
    induction n with
    | zero => rfl
    | succ n ih => simp [List.replicate_succ, hf, ih]
  have hrep : ∀ (i : Nat) t, (init cap n).threads[i]? = some t → t = ⟨.idle, 0⟩ := by
    intro i t h
    simp only [init] at h
    rw [List.getElem?_replicate] at h
    split at h <;> simp_all
  constructor
  · intro i t h; rw [hrep i t h]; simp [PC.locked, init]
  · simp [init]
  · simp [init]
  · intro i t w h; rw [hrep i t h]; simp
  · intro i t h; rw [hrep i t h]; simp [PC.amt, init]; omega
  · simp [init]
  · intro i t h; rw [hrep i t h]; simp
  · simp [init]
  · simp [init]
  · rw [hz _ rfl, hz _ rfl, hz _ rfl]; simp [even, init]
  · rw [hz _ rfl]; simp [even, init]; omega


/-- Core preservation lemma: one thread changes, the queue keeps its shape or
is replaced by one satisfying the stated side conditions. -/
theorem inv_update {s s' : St} {i : Nat} {t t' : Thread} (h : Inv s)
    (ht : s.threads[i]? = some t)
    (hth : s'.threads = s.threads.set i t')
    (hcap : s'.capacity = s.capacity) (hleak : 0 ≤ s'.leaked)
    (hl1 : t'.pc.locked = true ↔ s'.lock = some i)
    (hl2 : ∀ j, j ≠ i → (s'.lock = some j ↔ s.lock = some j))
    (hlive : ∀ x ∈ s'.sleepers, x.alive = true →
      (x.tid = i ∧ (t'.pc = .sleeping x.wants ∨ t'.pc = .borrowQueued x.wants)) ∨
      (x.tid ≠ i ∧ ∃ u, s.threads[x.tid]? = some u ∧
        (u.pc = .sleeping x.wants ∨ u.pc = .borrowQueued x.wants)))
    (hnd : ((s'.sleepers.filter (·.alive)).map (·.tid)).Nodup)
    (hgot : ∀ w, t'.pc = .awakeGot w → ∃ x q, s'.sleepers = x :: q ∧ x.wants = w)
    (hgot2 : ∀ (j : Nat) (u : Thread) (w : Int), j ≠ i → s.threads[j]? = some u → u.pc = .awakeGot w →
      ∃ x q, s'.sleepers = x :: q ∧ x.wants = w)
    (hamt : 0 ≤ t'.pc.amt ∧ t'.pc.amt % 2 = 0 ∧ t'.pc.amt ≤ s.capacity)
    (hq : ∀ x ∈ s'.sleepers, 0 ≤ x.wants ∧ x.wants % 2 = 0 ∧ x.wants ≤ s.capacity)
    (hheld : 0 ≤ t'.held ∧ t'.pc ≠ PC.panicked)
    (hmoney : even s' + t'.held + tent t'.pc + sent t'.pc + s'.leaked =
      even s + t.held + tent t.pc + sent t.pc + s.leaked)
    (hsolv : 0 ≤ even s + tsum (fun t => res t.pc) s →
      0 ≤ even s' + (tsum (fun t => res t.pc) s - res t.pc + res t'.pc)) : Inv s' := by
  have hs : ∀ f, tsum f s' = tsum f s - f t + f t' := by
    intro f; simp only [tsum, hth]; exact sum_set f _ _ _ _ ht
  have hget : ∀ j, s'.threads[j]? = if i = j then some t' else s.threads[j]? := by
    intro j; rw [hth]; exact get_set _ _ _ _ _ ht
  constructor
  · intro j u hj
    rw [hget] at hj
    split at hj
    · rename_i e; subst e; simp at hj; subst hj; exact hl1
    · rename_i e
      rw [hl2 j (fun e' => e e'.symm)]
      exact h.lockHolder j u hj
  · intro x hx ha
    rcases hlive x hx ha with ⟨e, hp⟩ | ⟨e, u, hu, hp⟩
    · exact ⟨t', by rw [hget, if_pos e.symm], hp⟩
    · exact ⟨u, by rw [hget, if_neg (fun e' => e e'.symm)]; exact hu, hp⟩
  · exact hnd
  · intro j u w hj hp
    rw [hget] at hj
    split at hj
    · simp at hj; subst hj; exact hgot w hp
    · rename_i e; exact hgot2 j u w (fun e' => e e'.symm) hj hp
  · intro j u hj
    rw [hget] at hj
    rw [hcap]
    split at hj
    · simp at hj; subst hj; exact hamt
    · exact h.amts j u hj
  · intro x hx; rw [hcap]; exact hq x hx
  · intro j u hj
    rw [hget] at hj
    split at hj
    · simp at hj; subst hj; exact hheld
    · exact h.helds j u hj
  · exact hleak
  · rw [hcap]; exact h.capEven
  · have hm := h.money
    rw [hs, hs, hs, hcap]
    omega
  · rw [hs]
    exact hsolv h.solvent

theorem setPC_eq {s : St} {i : Nat} {t : Thread} {pc : PC} (h : s.threads[i]? = some t) :
    setPC s i pc = { s with threads := s.threads.set i { t with pc := pc } } := by
  simp [setPC, h]

/-- Only one thread is in a critical section. -/
theorem Inv.uniq {s : St} (h : Inv s) {i j : Nat} {t u : Thread}
    (hi : s.threads[i]? = some t) (hj : s.threads[j]? = some u)
    (hti : t.pc.locked = true) (huj : u.pc.locked = true) : i = j := by
  have h1 := (h.lockHolder i t hi).1 hti
  have h2 := (h.lockHolder j u hj).1 huj
  simp_all

theorem Inv.live_ne {s : St} (h : Inv s) {i : Nat} {t : Thread}
    (hi : s.threads[i]? = some t) (hns : ∀ w, t.pc ≠ PC.sleeping w) (hnq : ∀ w, t.pc ≠ PC.borrowQueued w) :
    ∀ x ∈ s.sleepers, x.alive = true → x.tid ≠ i ∧ ∃ u, s.threads[x.tid]? = some u ∧
        (u.pc = .sleeping x.wants ∨ u.pc = .borrowQueued x.wants) := by
  intro x hx ha
  obtain ⟨u, hu, hp⟩ := h.live x hx ha
  refine ⟨?_, u, hu, hp⟩
  intro e
  rw [e, hi] at hu
  simp at hu
  subst hu
  rcases hp with hp | hp
  · exact hns _ hp
  · exact hnq _ hp

end Verif.WriteBack
