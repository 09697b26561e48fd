import Verif.Sched.Lemmas

/-! Helper lemmas: the invariant of the whole scheduler, preserved by every event. -/

namespace Verif.Sched

/-- How a request is built from submitted operations. -/
inductive Merged (iovMax : Option Nat) : Io → Prop where
  | one (op : BlockOp) : Merged iovMax ⟨op, [op]⟩
  | more {io op2} (h : Merged iovMax io) (hc : canAccumulate iovMax io.op op2 = true) :
      Merged iovMax ⟨accumulate io.op op2, io.parts ++ [op2]⟩

theorem Gather.merged {iovMax q io q' io'} (hg : Gather iovMax q io q' io')
    (hm : Merged iovMax io) : Merged iovMax io' := by
  induction hg with
  | none => exact hm
  | stop => exact hm
  | more h hc hp hg ih => exact ih (.more hm hc)

/-- All submitted operations that have been popped, in order. -/
def logParts (l : List (Fate × Io)) : List BlockOp := l.flatMap (fun e => e.2.parts)

def issuedIos (l : List (Fate × Io)) : List Io :=
  (l.filter (fun e => e.1 == .issued)).map (·.2)

def popped (s : S) : List BlockOp :=
  logParts s.log ++ (match s.delayed with | some io => io.parts | none => [])

structure SInv (c : Cfg) (s : S) : Prop where
  q : QInv s.q s.subm (popped s)
  logMerged : ∀ e ∈ s.log, Merged c.iovMax e.2
  delMerged : ∀ io, s.delayed = some io → Merged c.iovMax io
  account : (s.flight ++ s.done).Perm (issuedIos s.log)
  depth : s.remover = false → s.removed = false →
    s.depth = s.flight.length + s.delayed.toList.length
  noAbort : s.remover = false → s.removed = false → ∀ e ∈ s.log, e.1 = .issued

/-- Between selecting a request and disposing of it. -/
structure TInv (c : Cfg) (s : S) (io : Io) : Prop where
  q : QInv s.q s.subm (logParts s.log ++ io.parts)
  del : s.delayed = none
  logMerged : ∀ e ∈ s.log, Merged c.iovMax e.2
  merged : Merged c.iovMax io
  account : (s.flight ++ s.done).Perm (issuedIos s.log)
  depth : s.remover = false → s.removed = false → s.depth = s.flight.length + 1
  noAbort : s.remover = false → s.removed = false → ∀ e ∈ s.log, e.1 = .issued

theorem Take.inv {c s io s1} (ht : Take c s io s1) (h : SInv c s) : TInv c s1 io := by
  cases ht with
  | delayed hd =>
    refine ⟨?_, rfl, h.logMerged, h.delMerged io hd, h.account, ?_, h.noAbort⟩
    · have := h.q
      simp only [popped, hd] at this
      exact this
    · intro h1 h2
      have := h.depth h1 h2
      rw [hd] at this
      simpa using this
  | pop hd hp hg =>
    have hq := h.q
    simp only [popped, hd, List.append_nil] at hq
    obtain ⟨more, h1, h2⟩ := hg.spec (hq.pop hp)
    refine ⟨?_, hd, h.logMerged, hg.merged (.one _), h.account, ?_, h.noAbort⟩
    · rw [h1]; simpa using h2
    · intro h3 h4
      have := h.depth h3 h4
      rw [hd] at this
      simp at this ⊢
      exact this

theorem logParts_snoc (l : List (Fate × Io)) (e) : logParts (l ++ [e]) = logParts l ++ e.2.parts := by
  simp [logParts]

theorem TInv.issued {c s io} (h : TInv c s io) (s' : S) (hq : s'.q = s.q) (hsub : s'.subm = s.subm)
    (hdel : s'.delayed = none) (hlog : s'.log = s.log ++ [(.issued, io)])
    (hacc : (s'.flight ++ s'.done).Perm (io :: (s.flight ++ s.done)))
    (hr : s'.remover = s.remover) (hrd : s'.removed = s.removed)
    (hdep : s.remover = false → s.removed = false → s'.depth = s'.flight.length) : SInv c s' := by
  refine ⟨?_, ?_, ?_, ?_, ?_, ?_⟩
  · simp only [popped, hdel, hlog, logParts_snoc, List.append_nil, hq, hsub]
    exact h.q
  · intro e he
    rw [hlog] at he
    rcases List.mem_append.mp he with he | he
    · exact h.logMerged e he
    · have : e = (.issued, io) := by simpa using he
      subst this; exact h.merged
  · intro io' hio; rw [hdel] at hio; cases hio
  · refine hacc.trans ?_
    rw [hlog]
    simp only [issuedIos, List.filter_append, List.map_append]
    refine List.Perm.trans (List.Perm.cons io h.account) ?_
    simp only [issuedIos]
    exact List.perm_append_comm (l₁ := [io])
  · intro h1 h2
    rw [hr] at h1; rw [hrd] at h2
    rw [hdel]; simpa using hdep h1 h2
  · intro h1 h2 e he
    rw [hr] at h1; rw [hrd] at h2
    rw [hlog] at he
    rcases List.mem_append.mp he with he | he
    · exact h.noAbort h1 h2 e he
    · have : e = (.issued, io) := by simpa using he
      subst this; rfl

theorem SInv.finish {c s} (h : SInv c s) : SInv c (finish s) := by
  unfold Verif.Sched.finish
  split
  · refine ⟨h.q, h.logMerged, h.delMerged, h.account, ?_, ?_⟩
    · intro _ h2; cases h2
    · intro _ h2; cases h2
  · exact h

theorem IssueAll.inv {c s s'} (hi : IssueAll c s s') : SInv c s → SInv c s' := by
  induction hi with
  | full h => exact SInv.finish
  | idle h hd hp => exact SInv.finish
  | @abort s io s1 s2 h ht hr hu hi ih =>
    intro hs
    have t := ht.inv hs
    refine ih ⟨?_, ?_, ?_, ?_, ?_, ?_⟩
    · simp only [popped, t.del, logParts_snoc, List.append_nil]; exact t.q
    · intro e he
      rcases List.mem_append.mp he with he | he
      · exact t.logMerged e he
      · have : e = (.aborted, io) := by simpa using he
        subst this; exact t.merged
    · intro io' hio; simp only [t.del] at hio; cases hio
    · simpa [issuedIos] using t.account
    · intro h1; rw [hr] at h1; cases h1
    · intro h1; rw [hr] at h1; cases h1
  | @again s io s1 h ht hr =>
    intro hs
    have t := ht.inv hs
    refine SInv.finish ⟨?_, t.logMerged, ?_, t.account, ?_, t.noAbort⟩
    · simp only [popped]; exact t.q
    · intro io' hio; cases hio; exact t.merged
    · intro h1 h2
      have := t.depth h1 h2
      simpa using this
  | @pending s io s1 s2 h ht hr hi ih =>
    intro hs
    have t := ht.inv hs
    refine ih (t.issued _ rfl rfl t.del rfl ?_ rfl rfl ?_)
    · simp only [List.append_assoc, List.singleton_append]
      exact List.perm_middle
    · intro h1 h2
      have := t.depth h1 h2
      simpa using this
  | @ready s io s1 s2 h ht hr hi ih =>
    intro hs
    have t := ht.inv hs
    refine ih (t.issued _ rfl rfl t.del rfl ?_ rfl rfl ?_)
    · rw [← List.append_assoc]
      exact List.perm_append_comm
    · intro h1 h2
      have := t.depth h1 h2
      simp only [this]; omega

theorem Step.inv {c s s'} (st : Step c s s') (h : SInv c s) : SInv c s' := by
  cases st with
  | submit op hs hi =>
    refine hi.inv ⟨h.q.sched hs, h.logMerged, h.delMerged, h.account, h.depth, h.noAbort⟩
  | complete io hm hu =>
    refine ⟨h.q, h.logMerged, h.delMerged, ?_, ?_, h.noAbort⟩
    · refine List.Perm.trans ?_ h.account
      simp only
      rw [← List.append_assoc]
      refine List.Perm.trans List.perm_append_comm ?_
      rw [List.singleton_append, ← List.cons_append]
      exact List.Perm.append_right _ (List.perm_cons_erase hm).symm
    · intro h1 h2
      have := h.depth h1 h2
      simp only [List.length_erase_of_mem hm, this]
      have : 0 < s.flight.length := List.length_pos_of_mem hm
      omega
  | resched hw hi => exact hi.inv ⟨h.q, h.logMerged, h.delMerged, h.account, h.depth, h.noAbort⟩
  | remove hr hi =>
    refine hi.inv ⟨h.q, h.logMerged, h.delMerged, h.account, ?_, ?_⟩
    · intro h1; cases h1
    · intro h1; cases h1

theorem Reach.inv {c s} (h : Reach c s) : SInv c s := by
  induction h with
  | init =>
    refine ⟨QInv.init, by simp, by simp, by simp [issuedIos], by simp, by simp⟩
  | step h st ih => exact st.inv ih

/-- Operations still in the queues. -/
def queued (q : Q) : List BlockOp := q.ahead ++ q.behind ++ q.afterSync

/-- Something will call `issue_all` again. -/
def Live (s : S) : Prop :=
  s.remover = false → s.removed = false → (queued s.q ≠ [] ∨ s.delayed ≠ none) →
    s.flight ≠ [] ∨ 0 < s.wakes

theorem finish_eq {s : S} (h : s.remover = false) : finish s = s := by
  simp [finish, h]

theorem IssueAll.live {c s s'} (hopt : 2 ≤ c.opt) (hi : IssueAll c s s') :
    SInv c s → Live s' := by
  induction hi with
  | @full s h =>
    intro hs
    unfold finish
    split
    · intro _ h2; cases h2
    · intro h1 h2 _
      have := hs.depth h1 h2
      left
      intro hf
      rw [hf] at this
      cases hd : s.delayed <;> rw [hd] at this <;> simp at this <;> omega
  | @idle s h hd hp =>
    intro hs
    unfold finish
    split
    · intro _ h2; cases h2
    · intro h1 h2 h3
      exfalso
      obtain ⟨ha, hb, hsy⟩ := hp
      have : s.q.afterSync = [] := by
        have := hs.q.syncing
        rw [hsy] at this
        simpa using this.symm
      simp [queued, ha, hb, this, hd] at h3
  | @abort s io s1 s2 h ht hr hu hi ih =>
    intro hs
    have t := ht.inv hs
    refine ih ⟨?_, ?_, ?_, ?_, ?_, ?_⟩
    · simp only [popped, t.del, logParts_snoc, List.append_nil]; exact t.q
    · intro e he
      rcases List.mem_append.mp he with he | he
      · exact t.logMerged e he
      · have : e = (.aborted, io) := by simpa using he
        subst this; exact t.merged
    · intro io' hio; simp only [t.del] at hio; cases hio
    · simpa [issuedIos] using t.account
    · intro h1; rw [hr] at h1; cases h1
    · intro h1; rw [hr] at h1; cases h1
  | @again s io s1 h ht hr =>
    intro hs
    have t := ht.inv hs
    rw [finish_eq (by exact hr)]
    intro h1 h2 _
    have hd := t.depth h1 h2
    by_cases h3 : s1.depth = 1
    · right; simp [h3]
    · left
      intro hf
      simp only at hf
      rw [hf] at hd
      simp at hd
      exact h3 hd
  | @pending s io s1 s2 h ht hr hi ih =>
    intro hs
    have t := ht.inv hs
    refine ih (t.issued _ rfl rfl t.del rfl ?_ rfl rfl ?_)
    · simp only [List.append_assoc, List.singleton_append]
      exact List.perm_middle
    · intro h1 h2
      have := t.depth h1 h2
      simpa using this
  | @ready s io s1 s2 h ht hr hi ih =>
    intro hs
    have t := ht.inv hs
    refine ih (t.issued _ rfl rfl t.del rfl ?_ rfl rfl ?_)
    · rw [← List.append_assoc]
      exact List.perm_append_comm
    · intro h1 h2
      have := t.depth h1 h2
      simp only [this]; omega

theorem Reach.live {c s} (hopt : 2 ≤ c.opt) (h : Reach c s) : Live s := by
  induction h with
  | init => intro _ _ h; simp [queued] at h
  | @step s s' h st ih =>
    have hs := h.inv
    cases st with
    | submit op hso hi =>
      exact hi.live hopt ⟨hs.q.sched hso, hs.logMerged, hs.delMerged, hs.account, hs.depth, hs.noAbort⟩
    | complete io hm hu => intro _ _ _; right; simp
    | resched hw hi =>
      exact hi.live hopt ⟨hs.q, hs.logMerged, hs.delMerged, hs.account, hs.depth, hs.noAbort⟩
    | remove hr hi =>
      refine hi.live hopt ⟨hs.q, hs.logMerged, hs.delMerged, hs.account, ?_, ?_⟩
      · intro h1; cases h1
      · intro h1; cases h1

end Verif.Sched
