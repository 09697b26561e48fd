import Verif.Sched.Props

/-! # Removing a device: C61 -/

namespace Verif.Sched

/-- No merged request was aborted. -/
def AbortSingle (s : S) : Prop :=
  ∀ e ∈ s.log, e.1 = Fate.aborted → e.2.op.senders.length = 1

/-- `queue_depth` counts the requests given to the device or being retried. -/
def RInv (s : S) : Prop :=
  AbortSingle s → s.removed = false → s.depth = s.flight.length + s.delayed.toList.length

/-- What a completed removal guarantees. -/
def Clear (s : S) : Prop := s.flight = [] ∧ s.delayed = none ∧ waiting s = []

theorem Take.r {c s io s1} (ht : Take c s io s1) (h : RInv s) :
    s1.log = s.log ∧ s1.removed = s.removed ∧ s1.remover = s.remover ∧ s1.delayed = none ∧
    (AbortSingle s → s.removed = false → s1.depth = s1.flight.length + 1) := by
  cases ht with
  | delayed hd =>
    refine ⟨rfl, rfl, rfl, rfl, ?_⟩
    intro h1 h2
    have := h h1 h2
    rw [hd] at this
    simpa using this
  | pop hd hp hg =>
    refine ⟨rfl, rfl, rfl, hd, ?_⟩
    intro h1 h2
    have := h h1 h2
    rw [hd] at this
    simpa using this

theorem IssueAll.r {c s s'} (hopt : 1 ≤ c.opt) (hi : IssueAll c s s') :
    SInv c s → RInv s → RInv s' ∧ (∃ l, s'.log = s.log ++ l) ∧
      (s.removed = false → s'.removed = true → AbortSingle s' → Clear s') := by
  have hfin : ∀ s : S, RInv s → (s.depth = 0 → s.delayed = none → waiting s = []) →
      RInv (finish s) ∧ (∃ l, (finish s).log = s.log ++ l) ∧
      (s.removed = false → (finish s).removed = true → AbortSingle (finish s) →
        Clear (finish s)) := by
    intro s hr hw
    unfold finish
    split
    · rename_i hc
      have hc' : s.depth = 0 ∧ s.remover = true := by simpa using hc
      refine ⟨?_, ⟨[], by simp⟩, ?_⟩
      · intro _ h2; cases h2
      · intro h1 _ h3
        have := hr h3 h1
        rw [hc'.1] at this
        have hf : s.flight = [] := List.eq_nil_of_length_eq_zero (by omega)
        have hd : s.delayed = none := by
          cases hd : s.delayed with
          | none => rfl
          | some io => rw [hd] at this; simp at this
        exact ⟨hf, hd, hw hc'.1 hd⟩
    · refine ⟨hr, ⟨[], by simp⟩, ?_⟩
      intro h1 h2; rw [h1] at h2; cases h2
  induction hi with
  | @full s h =>
    intro hs hr
    exact hfin s hr (fun h0 => by omega)
  | @idle s h hd hp =>
    intro hs hr
    refine hfin s hr (fun _ _ => ?_)
    obtain ⟨ha, hb, hsy⟩ := hp
    have : s.q.afterSync = [] := by
      have := hs.q.syncing
      rw [hsy] at this
      simpa using this.symm
    simp [waiting, ha, hb, this]
  | @abort s io s1 s2 h ht hr hu hi ih =>
    intro hs hrv
    have t := ht.inv hs
    obtain ⟨e1, e2, e3, e4, e5⟩ := ht.r hrv
    have hs' : SInv c { s1 with depth := s1.depth - io.op.senders.length,
                                log := s1.log ++ [(.aborted, io)] } := by
      refine ⟨?_, ?_, ?_, ?_, ?_, ?_⟩
      · simp only [popped, t.del, logParts_snoc, List.append_nil]; exact t.q
      · intro e he
        rcases List.mem_append.mp he with he | he
        · exact t.logMerged e he
        · have : e = (.aborted, io) := by simpa using he
          subst this; exact t.merged
      · intro io' hio; simp only [t.del] at hio; cases hio
      · simpa [issuedIos] using t.account
      · intro h1; rw [hr] at h1; cases h1
      · intro h1; rw [hr] at h1; cases h1
    obtain ⟨h1, ⟨l, h2⟩, h3⟩ := ih hs' (by
      intro ha hrm
      simp only at hrm ⊢
      have hb : AbortSingle s := fun e he => ha e (by simp [e1, he])
      have hl : io.op.senders.length = 1 := ha (.aborted, io) (by simp) rfl
      have := e5 hb (by rw [← e2]; exact hrm)
      rw [e4, hl, this]; simp)
    exact ⟨h1, ⟨_, by rw [h2, e1, List.append_assoc]⟩, fun h4 => h3 (by simp only [e2]; exact h4)⟩
  | @again s io s1 h ht hr =>
    intro hs hrv
    obtain ⟨e1, e2, e3, e4, e5⟩ := ht.r hrv
    rw [finish_eq (by exact hr)]
    refine ⟨?_, ⟨[], by simp [e1]⟩, ?_⟩
    · intro ha hrm
      simp only at hrm ⊢
      have := e5 (fun e he => ha e (by simpa [e1] using he)) (by rw [← e2]; exact hrm)
      rw [this]; simp
    · intro h1 h2
      simp only [e2] at h2
      rw [h1] at h2; cases h2
  | @pending s io s1 s2 h ht hr hi ih =>
    intro hs hrv
    have t := ht.inv hs
    obtain ⟨e1, e2, e3, e4, e5⟩ := ht.r hrv
    have hs' := t.issued { s1 with flight := s1.flight ++ [io],
                                   log := s1.log ++ [(.issued, io)] } rfl rfl t.del rfl
      (by
        simp only [List.append_assoc, List.singleton_append]
        exact List.perm_middle) rfl rfl
      (by
        intro h1 h2
        have := t.depth h1 h2
        simpa using this)
    obtain ⟨h1, ⟨l, h2⟩, h3⟩ := ih hs' (by
      intro ha hrm
      simp only at hrm ⊢
      have := e5 (fun e he => ha e (by simp [e1, he])) (by rw [← e2]; exact hrm)
      rw [e4, this]; simp)
    exact ⟨h1, ⟨_, by rw [h2, e1, List.append_assoc]⟩, fun h4 => h3 (by simp only [e2]; exact h4)⟩
  | @ready s io s1 s2 h ht hr hi ih =>
    intro hs hrv
    have t := ht.inv hs
    obtain ⟨e1, e2, e3, e4, e5⟩ := ht.r hrv
    have hs' := t.issued { s1 with depth := s1.depth - 1, done := s1.done ++ [io],
                                   log := s1.log ++ [(.issued, io)] } rfl rfl t.del rfl
      (by
        rw [← List.append_assoc]
        exact List.perm_append_comm) rfl rfl
      (by
        intro h1 h2
        have := t.depth h1 h2
        simp only [this]; omega)
    obtain ⟨h1, ⟨l, h2⟩, h3⟩ := ih hs' (by
      intro ha hrm
      simp only at hrm ⊢
      have := e5 (fun e he => ha e (by simp [e1, he])) (by rw [← e2]; exact hrm)
      rw [e4, this]; simp)
    exact ⟨h1, ⟨_, by rw [h2, e1, List.append_assoc]⟩, fun h4 => h3 (by simp only [e2]; exact h4)⟩

theorem Step.r {c s s'} (hopt : 1 ≤ c.opt) (st : Step c s s') (hs : SInv c s) (hr : RInv s) :
    RInv s' ∧ (s.removed = false → s'.removed = true → AbortSingle s' → Clear s') := by
  cases st with
  | submit op hso hi =>
    obtain ⟨h1, _, h3⟩ := hi.r hopt
      ⟨hs.q.sched hso, hs.logMerged, hs.delMerged, hs.account, hs.depth, hs.noAbort⟩ hr
    exact ⟨h1, h3⟩
  | complete io hm hu =>
    refine ⟨?_, ?_⟩
    · intro ha hrm
      have := hr ha hrm
      simp only [List.length_erase_of_mem hm, this]
      have : 0 < s.flight.length := List.length_pos_of_mem hm
      omega
    · intro h1 h2
      simp only at h2
      rw [h1] at h2; cases h2
  | resched hw hi =>
    obtain ⟨h1, _, h3⟩ := hi.r hopt
      ⟨hs.q, hs.logMerged, hs.delMerged, hs.account, hs.depth, hs.noAbort⟩ hr
    exact ⟨h1, h3⟩
  | remove hrm hi =>
    obtain ⟨h1, _, h3⟩ := hi.r hopt
      ⟨hs.q, hs.logMerged, hs.delMerged, hs.account, (fun h1 => by cases h1),
        (fun h1 => by cases h1)⟩ hr
    exact ⟨h1, h3⟩

theorem Reach.r {c s} (hopt : 1 ≤ c.opt) (h : Reach c s) : RInv s := by
  induction h with
  | init => intro _ _; rfl
  | step h st ih => exact (st.r hopt h.inv ih).1

/-- C61: when `remove()` returns, no request is still with the device and no operation is
waiting, provided that no *merged* request had to be aborted.  What is missing for the full
claim: with a merged request it fails, see `C61_removed_too_early`. -/
theorem C61_remove_waits_partial {c s s'} (h : Reach c s) (hopt : 1 ≤ c.opt) (st : Step c s s')
    (h0 : s.removed = false) (h1 : s'.removed = true)
    (ha : ∀ e ∈ s'.log, e.1 = Fate.aborted → e.2.op.senders.length = 1) :
    s'.flight = [] ∧ refused s' = [] ∧ waiting s' = [] := by
  obtain ⟨h2, h3, h4⟩ := (st.r hopt h.inv (h.r hopt)).2 h0 h1 ha
  exact ⟨h2, by simp [refused, h3], h4⟩

/-- Two reads with the device, two adjacent ones waiting, and a removal under way. -/
def exRemove : S where
  q := { lastLba := 3, ahead := [rd 3 8, rd 2 7] }
  depth := 2
  flight := [io1 (rd 0 0), io1 (rd 1 3)]
  remover := true
  subm := [rd 0 0, rd 1 3, rd 2 7, rd 3 8]
  log := [(.issued, io1 (rd 0 0)), (.issued, io1 (rd 1 3))]

theorem exRemove_reach : Reach exCfg exRemove := by
  have h1 : Reach exCfg
      { depth := 1, flight := [io1 (rd 0 0)], subm := [rd 0 0],
        log := [(.issued, io1 (rd 0 0))] } := by
    refine .step .init (.submit (rd 0 0) rfl ?_)
    refine .pending (io := io1 (rd 0 0)) (by decide)
      (.pop rfl (.ahead (isTop_singleton _)) (.none ⟨rfl, rfl, rfl⟩)) rfl ?_
    exact .idle (by decide) rfl ⟨rfl, rfl, rfl⟩
  have h2 : Reach exCfg
      { q := { lastLba := 3 }, depth := 2, flight := [io1 (rd 0 0), io1 (rd 1 3)],
        subm := [rd 0 0, rd 1 3],
        log := [(.issued, io1 (rd 0 0)), (.issued, io1 (rd 1 3))] } := by
    refine .step h1 (.submit (rd 1 3) rfl ?_)
    refine .pending (io := io1 (rd 1 3)) (by decide)
      (.pop rfl (.ahead (isTop_singleton _)) (.none ⟨rfl, rfl, rfl⟩)) rfl ?_
    exact .full (by decide)
  have h3 := Reach.step h2 (.submit (rd 2 7) rfl (.full (by decide)))
  have h4 := Reach.step h3 (.submit (rd 3 8) rfl (.full (by decide)))
  exact Reach.step h4 (.remove rfl (.full (by decide)))

/-- C61 fails: the two adjacent reads are merged and aborted together, `queue_depth` is
decremented once for each of them although it was incremented once, so it reaches zero and
`remove()` returns while a read is still with the device.  When that read completes,
`queue_depth -= 1` underflows. -/
theorem C61_removed_too_early :
    ∃ s, Reach exCfg s ∧ s.removed = true ∧ s.flight = [io1 (rd 1 3)] ∧ s.depth = 0 := by
  have h5 : Reach exCfg
      { q := { lastLba := 3, ahead := [rd 3 8, rd 2 7] }, depth := 1, flight := [io1 (rd 1 3)],
        remover := true, subm := [rd 0 0, rd 1 3, rd 2 7, rd 3 8], wakes := 1,
        log := [(.issued, io1 (rd 0 0)), (.issued, io1 (rd 1 3))],
        done := [io1 (rd 0 0)] } :=
    Reach.step exRemove_reach (.complete (io1 (rd 0 0)) (by decide) (by decide))
  refine ⟨_, .step h5 (.resched (by decide) (.abort (by decide)
    (.pop (op := rd 2 7) rfl (.ahead ⟨by decide, ?_⟩)
      (.more (op2 := rd 3 8) (.ahead ⟨by decide, ?_⟩) (by decide) (.ahead ⟨by decide, ?_⟩)
        (.none ⟨rfl, rfl, rfl⟩))) rfl (by decide) (.idle (by decide) rfl ⟨rfl, rfl, rfl⟩))), ?_⟩
  · intro x hx
    have : x = rd 3 8 ∨ x = rd 2 7 := by simpa using hx
    rcases this with rfl | rfl <;> simp [BlockOp.above, rd]
  · intro x hx
    have : x = rd 3 8 := by simpa [rd] using hx
    subst this; simp [BlockOp.above]
  · intro x hx
    have : x = rd 3 8 := by simpa [rd] using hx
    subst this; simp [BlockOp.above]
  · refine ⟨?_, ?_, ?_⟩ <;> decide

/-- The hypotheses of `C61_remove_waits_partial` are met by a removal that aborts one read. -/
example : ∃ s s', Reach exCfg s ∧ Step exCfg s s' ∧ s.removed = false ∧ s'.removed = true ∧
    (∀ e ∈ s'.log, e.1 = Fate.aborted → e.2.op.senders.length = 1) ∧
    (.aborted, io1 (rd 2 9)) ∈ s'.log := by
  have h1 : Reach exCfg
      { depth := 1, flight := [io1 (rd 0 0)], subm := [rd 0 0],
        log := [(.issued, io1 (rd 0 0))] } := by
    refine .step .init (.submit (rd 0 0) rfl ?_)
    refine .pending (io := io1 (rd 0 0)) (by decide)
      (.pop rfl (.ahead (isTop_singleton _)) (.none ⟨rfl, rfl, rfl⟩)) rfl ?_
    exact .idle (by decide) rfl ⟨rfl, rfl, rfl⟩
  have h2 : Reach exCfg
      { q := { lastLba := 3 }, depth := 2, flight := [io1 (rd 0 0), io1 (rd 1 3)],
        subm := [rd 0 0, rd 1 3],
        log := [(.issued, io1 (rd 0 0)), (.issued, io1 (rd 1 3))] } := by
    refine .step h1 (.submit (rd 1 3) rfl ?_)
    refine .pending (io := io1 (rd 1 3)) (by decide)
      (.pop rfl (.ahead (isTop_singleton _)) (.none ⟨rfl, rfl, rfl⟩)) rfl ?_
    exact .full (by decide)
  have h3 := Reach.step h2 (.submit (rd 2 9) rfl (.full (by decide)))
  have h4 := Reach.step h3 (.remove rfl (.full (by decide)))
  have h5 := Reach.step h4 (.complete (io1 (rd 0 0)) (by decide) (by decide))
  have h6 := Reach.step h5 (.complete (io1 (rd 1 3)) (by decide) (by decide))
  refine ⟨_, _, h6, .resched (by decide) (.abort (io := io1 (rd 2 9)) (by decide)
    (.pop rfl (.ahead (isTop_singleton _)) (.none ⟨rfl, rfl, rfl⟩)) rfl (by decide)
      (.idle (by decide) rfl ⟨rfl, rfl, rfl⟩)), ?_, ?_, ?_, ?_⟩ <;> decide

end Verif.Sched
