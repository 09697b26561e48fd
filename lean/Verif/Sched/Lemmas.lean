import Verif.Sched.Model

/-! Helper lemmas: the invariant of the scheduler's queues. -/

namespace Verif.Sched

/-- Invariant of the queues, with the submitted operations and those popped so
far, in order. -/
structure QInv (q : Q) (subm popped : List BlockOp) : Prop where
  ids : ∀ (k : Nat) op, subm[k]? = some op → op.senders = [k]
  split : ∃ m, q.afterSync = subm.drop m ∧
    (popped ++ (q.ahead ++ q.behind)).Perm (subm.take m)
  syncing : q.syncing = !q.afterSync.isEmpty
  head : ∀ op rest, q.afterSync = op :: rest → op.cmd.isSync = true
  nosync : ∀ x ∈ q.ahead ++ q.behind, x.cmd.isSync = false
  later : ∀ x ∈ q.ahead ++ q.behind, ∀ y ∈ popped, y.cmd.isSync = true →
    ∀ i j : Nat, y.senders = [i] → x.senders = [j] → i < j
  aheadGe : ∀ x ∈ q.ahead, q.lastLba ≤ x.lba
  behindLt : ∀ x ∈ q.behind, x.lba < q.lastLba
  last : q.lastLba = 0 ∨ ∃ c ∈ popped, c.cmd.isSync = false ∧ c.lba = q.lastLba
  barrier : ∀ l1 y l2, popped = l1 ++ y :: l2 → ∀ (i j : Nat) x, subm[i]? = some x →
    subm[j]? = some y → i < j → (x.cmd.isSync = true ∨ y.cmd.isSync = true) → x ∈ l1
  clook : ∀ l1 y l2, popped = l1 ++ y :: l2 → ∀ (i j : Nat) x, subm[i]? = some x →
    subm[j]? = some y → i < j → x.cmd.isSync = false → y.cmd.isSync = false →
    x.lba < y.lba → x ∈ l1 ∨ ∃ c ∈ l1, c.cmd.isSync = false ∧ x.lba < c.lba ∧ c.lba ≤ y.lba

theorem QInv.init : QInv {} [] [] := by
  constructor <;> simp

theorem QInv.mem_subm {q subm popped} (h : QInv q subm popped) {x}
    (hx : x ∈ popped ++ (q.ahead ++ q.behind)) : x ∈ subm := by
  obtain ⟨m, _, hp⟩ := h.split
  exact List.mem_of_mem_take (hp.mem_iff.mp hx)

theorem QInv.idx {q subm popped} (h : QInv q subm popped) {x}
    (hx : x ∈ popped ++ (q.ahead ++ q.behind)) : ∃ k, subm[k]? = some x ∧ x.senders = [k] := by
  obtain ⟨k, hk⟩ := List.mem_iff_getElem?.mp (h.mem_subm hx)
  exact ⟨k, hk, h.ids k x hk⟩

theorem idx_lt {l : List BlockOp} {k : Nat} {x} (h : l[k]? = some x) : k < l.length := by
  rcases Nat.lt_or_ge k l.length with h1 | h1
  · exact h1
  · rw [List.getElem?_eq_none h1] at h; cases h

theorem getElem?_snoc_old {l : List BlockOp} {z x : BlockOp} {k : Nat} (hk : k < l.length)
    (h : (l ++ [z])[k]? = some x) : l[k]? = some x := by
  rw [List.getElem?_append_left hk] at h; exact h

/-- Submitting an operation keeps the invariant. -/
theorem QInv.sched {q subm popped op} (h : QInv q subm popped)
    (hs : op.senders = [subm.length]) : QInv (sched q op) (subm ++ [op]) popped := by
  have hids : ∀ (k : Nat) op', (subm ++ [op])[k]? = some op' → op'.senders = [k] := by
    intro k op' hk
    rcases Nat.lt_or_ge k subm.length with h1 | h1
    · exact h.ids k op' (getElem?_snoc_old h1 hk)
    · have h2 := idx_lt hk
      have h3 : k = subm.length := by simp at h2; omega
      subst h3
      simp at hk; subst hk; exact hs
  -- facts about popped pairs do not change, since the new operation is the last
  have hpop : ∀ l1 y l2, popped = l1 ++ y :: l2 → ∀ j : Nat, (subm ++ [op])[j]? = some y →
      j < subm.length ∧ subm[j]? = some y := by
    intro l1 y l2 hp j hj
    have hm : y ∈ popped ++ (q.ahead ++ q.behind) := by rw [hp]; simp
    obtain ⟨k, hk, hsk⟩ := h.idx hm
    have := hids j y hj
    rw [hsk] at this
    have hjk : k = j := by simpa using this
    subst hjk
    exact ⟨idx_lt hk, hk⟩
  have hbar : ∀ l1 y l2, popped = l1 ++ y :: l2 → ∀ (i j : Nat) x, (subm ++ [op])[i]? = some x →
      (subm ++ [op])[j]? = some y → i < j → (x.cmd.isSync = true ∨ y.cmd.isSync = true) →
      x ∈ l1 := by
    intro l1 y l2 hp i j x hi hj hij hsy
    obtain ⟨hj1, hj2⟩ := hpop l1 y l2 hp j hj
    exact h.barrier l1 y l2 hp i j x (getElem?_snoc_old (by omega) hi) hj2 hij hsy
  have hcl : ∀ l1 y l2, popped = l1 ++ y :: l2 → ∀ (i j : Nat) x, (subm ++ [op])[i]? = some x →
      (subm ++ [op])[j]? = some y → i < j → x.cmd.isSync = false → y.cmd.isSync = false →
      x.lba < y.lba →
      x ∈ l1 ∨ ∃ c ∈ l1, c.cmd.isSync = false ∧ x.lba < c.lba ∧ c.lba ≤ y.lba := by
    intro l1 y l2 hp i j x hi hj hij hsx hsy hl
    obtain ⟨hj1, hj2⟩ := hpop l1 y l2 hp j hj
    exact h.clook l1 y l2 hp i j x (getElem?_snoc_old (by omega) hi) hj2 hij hsx hsy hl
  obtain ⟨m, hm1, hm2⟩ := h.split
  unfold Verif.Sched.sched
  by_cases hc : (op.cmd.isSync || q.syncing) = true
  · rw [if_pos hc]
    -- the new operation goes to the end of `after_sync`
    have hmin : q.afterSync = subm.drop (min m subm.length) ∧
        (popped ++ (q.ahead ++ q.behind)).Perm (subm.take (min m subm.length)) := by
      rcases Nat.le_total m subm.length with h1 | h1
      · rw [Nat.min_eq_left h1]; exact ⟨hm1, hm2⟩
      · rw [Nat.min_eq_right h1]
        refine ⟨?_, ?_⟩
        · rw [hm1, List.drop_of_length_le h1, List.drop_of_length_le (Nat.le_refl _)]
        · rw [List.take_of_length_le h1] at hm2
          rw [List.take_of_length_le (Nat.le_refl _)]; exact hm2
    have hle : min m subm.length ≤ subm.length := Nat.min_le_right _ _
    refine ⟨hids, ⟨min m subm.length, ?_, ?_⟩, ?_, ?_, h.nosync, h.later, h.aheadGe, h.behindLt,
      h.last, hbar, hcl⟩
    · simp only
      rw [List.drop_append_of_le_length hle, ← hmin.1]
    · simp only
      rw [List.take_append_of_le_length hle]; exact hmin.2
    · simp
    · simp only
      intro op' rest heq
      cases hq : q.afterSync with
      | nil =>
        rw [hq] at heq
        simp at heq
        obtain ⟨h1, _⟩ := heq
        subst h1
        have : q.syncing = false := by rw [h.syncing, hq]; rfl
        simpa [this] using hc
      | cons a r =>
        rw [hq] at heq
        simp at heq
        obtain ⟨h1, _⟩ := heq
        subst h1
        exact h.head a r hq
  · rw [if_neg hc]
    have hc' : op.cmd.isSync = false ∧ q.syncing = false := by simpa using hc
    have haf : q.afterSync = [] := by
      have := h.syncing
      rw [hc'.2] at this
      simpa using this.symm
    have hmlen : subm.length ≤ m := by
      rw [haf] at hm1
      exact List.drop_eq_nil_iff.mp hm1.symm
    have hperm : (popped ++ (q.ahead ++ q.behind)).Perm subm := by
      rwa [List.take_of_length_le hmlen] at hm2
    have hlater : ∀ x ∈ op :: (q.ahead ++ q.behind), ∀ y ∈ popped, y.cmd.isSync = true →
        ∀ i j : Nat, y.senders = [i] → x.senders = [j] → i < j := by
      intro x hx y hy hsy i j hyi hxj
      rcases List.mem_cons.mp hx with h1 | h1
      · subst h1
        obtain ⟨k, hk, hsk⟩ := h.idx (x := y) (List.mem_append_left _ hy)
        have h2 : k = i := by rw [hsk] at hyi; simpa using hyi
        have h3 : j = subm.length := by rw [hs] at hxj; simpa using hxj.symm
        have := idx_lt hk
        omega
      · exact h.later x h1 y hy hsy i j hyi hxj
    by_cases hl : q.lastLba ≤ op.lba
    · rw [if_pos hl]
      refine ⟨hids, ⟨(subm ++ [op]).length, ?_, ?_⟩, h.syncing, h.head, ?_, ?_, ?_, h.behindLt,
        h.last, hbar, hcl⟩
      · simp [haf]
      · simp only [List.take_of_length_le (Nat.le_refl _)]
        refine List.Perm.trans ?_ (List.perm_append_comm (l₁ := [op]))
        refine List.Perm.trans (List.perm_middle (a := op)) ?_
        exact List.Perm.cons op hperm
      · intro x hx
        simp only [List.cons_append, List.mem_cons] at hx
        rcases hx with h1 | h1
        · subst h1; exact hc'.1
        · exact h.nosync x h1
      · intro x hx
        simp only [List.cons_append] at hx
        exact hlater x hx
      · intro x hx
        simp only [List.mem_cons] at hx
        rcases hx with h1 | h1
        · subst h1; exact hl
        · exact h.aheadGe x h1
    · rw [if_neg hl]
      have hpm : (q.ahead ++ op :: q.behind).Perm (op :: (q.ahead ++ q.behind)) :=
        List.perm_middle
      refine ⟨hids, ⟨(subm ++ [op]).length, ?_, ?_⟩, h.syncing, h.head, ?_, ?_, h.aheadGe, ?_,
        h.last, hbar, hcl⟩
      · simp [haf]
      · simp only [List.take_of_length_le (Nat.le_refl _)]
        refine List.Perm.trans (List.Perm.append_left popped hpm) ?_
        refine List.Perm.trans ?_ (List.perm_append_comm (l₁ := [op]))
        refine List.Perm.trans (List.perm_middle (a := op)) ?_
        exact List.Perm.cons op hperm
      · intro x hx
        have hx := hpm.mem_iff.mp hx
        rcases List.mem_cons.mp hx with h1 | h1
        · subst h1; exact hc'.1
        · exact h.nosync x h1
      · intro x hx
        exact hlater x (hpm.mem_iff.mp hx)
      · intro x hx
        simp only [List.mem_cons] at hx
        rcases hx with h1 | h1
        · subst h1; exact Nat.lt_of_not_le hl
        · exact h.behindLt x h1

/-- What the rescheduling loop after a `sync_all` does. -/
theorem drain_spec (l : List BlockOp) (q : Q) (hs : q.syncing = false) :
    ∃ moved left, l = moved ++ left ∧ (drain l q).afterSync = left ∧
      (drain l q).syncing = (!left.isEmpty) ∧
      (∀ op rest, left = op :: rest → op.cmd.isSync = true) ∧
      (∀ x ∈ moved, x.cmd.isSync = false) ∧
      ((drain l q).ahead ++ (drain l q).behind).Perm (moved ++ (q.ahead ++ q.behind)) ∧
      (drain l q).lastLba = q.lastLba ∧
      ((∀ x ∈ q.ahead, q.lastLba ≤ x.lba) → ∀ x ∈ (drain l q).ahead, q.lastLba ≤ x.lba) ∧
      ((∀ x ∈ q.behind, x.lba < q.lastLba) → ∀ x ∈ (drain l q).behind, x.lba < q.lastLba) := by
  induction l generalizing q with
  | nil =>
    refine ⟨[], [], rfl, rfl, by simp [drain, hs], by simp, by simp, ?_, rfl, ?_, ?_⟩
    · simp [drain]
    · intro h; exact h
    · intro h; exact h
  | cons op rest ih =>
    by_cases hop : op.cmd.isSync = true
    · refine ⟨[], op :: rest, rfl, ?_, ?_, ?_, by simp, ?_, ?_, ?_, ?_⟩
      all_goals try simp only [drain, hop, if_true]
      · simp
      · intro o r he; cases he; exact hop
      · simp
      · intro h; exact h
      · intro h; exact h
    · have hop' : op.cmd.isSync = false := by simpa using hop
      have hstep : drain (op :: rest) q = drain rest (sched { q with afterSync := rest } op) := by
        simp only [drain, hop', if_neg (by decide : ¬ (false = true))]
      by_cases hl : q.lastLba ≤ op.lba
      · have hsch : sched { q with afterSync := rest } op =
            { q with afterSync := rest, ahead := op :: q.ahead } := by
          simp [sched, hop', hs, hl]
        rw [hstep, hsch]
        obtain ⟨mv, lf, h1, h2, h3, h4, h5, h6, h7, h8, h9⟩ :=
          ih { q with afterSync := rest, ahead := op :: q.ahead } hs
        refine ⟨op :: mv, lf, by rw [h1]; rfl, h2, h3, h4, ?_, ?_, h7, ?_, h9⟩
        · intro x hx
          rcases List.mem_cons.mp hx with hx | hx
          · subst hx; exact hop'
          · exact h5 x hx
        · refine h6.trans ?_
          simp only [List.cons_append]
          exact List.perm_middle
        · intro hq
          refine h8 ?_
          intro x hx
          simp only [List.mem_cons] at hx
          rcases hx with hx | hx
          · subst hx; exact hl
          · exact hq x hx
      · have hsch : sched { q with afterSync := rest } op =
            { q with afterSync := rest, behind := op :: q.behind } := by
          simp [sched, hop', hs, hl]
        rw [hstep, hsch]
        obtain ⟨mv, lf, h1, h2, h3, h4, h5, h6, h7, h8, h9⟩ :=
          ih { q with afterSync := rest, behind := op :: q.behind } hs
        refine ⟨op :: mv, lf, by rw [h1]; rfl, h2, h3, h4, ?_, ?_, h7, h8, ?_⟩
        · intro x hx
          rcases List.mem_cons.mp hx with hx | hx
          · subst hx; exact hop'
          · exact h5 x hx
        · refine h6.trans ?_
          simp only [List.cons_append]
          refine List.Perm.trans (List.Perm.append_left mv (List.perm_middle)) ?_
          exact List.perm_middle
        · intro hq
          refine h9 ?_
          intro x hx
          simp only [List.mem_cons] at hx
          rcases hx with hx | hx
          · subst hx; exact Nat.lt_of_not_le hl
          · exact hq x hx

theorem snoc_split {α} {l l1 l2 : List α} {y z : α} (h : l ++ [z] = l1 ++ y :: l2) :
    (∃ l2', l = l1 ++ y :: l2') ∨ (l1 = l ∧ y = z) := by
  rcases List.eq_nil_or_concat l2 with h2 | ⟨l2', w, h2⟩
  · subst h2
    have := List.append_inj' h rfl
    obtain ⟨h3, h4⟩ := this
    right
    exact ⟨h3.symm, by simpa using h4.symm⟩
  · subst h2
    left
    rw [List.concat_eq_append, ← List.cons_append, ← List.append_assoc] at h
    have := List.append_inj' h rfl
    exact ⟨l2', this.1⟩

/-- Popping an operation keeps the invariant. -/
theorem QInv.pop {q subm popped op q'} (h : QInv q subm popped) (hp : Pop q op q') :
    QInv q' subm (popped ++ [op]) := by
  obtain ⟨m, hm1, hm2⟩ := h.split
  -- popping a non-sync operation
  have key : ∀ (a' b' : List BlockOp), (q.ahead ++ q.behind).Perm (op :: (a' ++ b')) →
      (∀ x ∈ a', op.lba ≤ x.lba) → (∀ x ∈ b', x.lba < op.lba) →
      (∀ x ∈ q.ahead ++ q.behind, x.lba < op.lba →
        ∃ c ∈ popped, c.cmd.isSync = false ∧ x.lba < c.lba ∧ c.lba ≤ op.lba) →
      QInv { q with ahead := a', behind := b', lastLba := op.lba } subm (popped ++ [op]) := by
    intro a' b' hperm ha hb hc
    have hopm : op ∈ q.ahead ++ q.behind := hperm.mem_iff.mpr (List.mem_cons_self)
    have hopn : op.cmd.isSync = false := h.nosync op hopm
    have hsub : ∀ x ∈ a' ++ b', x ∈ q.ahead ++ q.behind := fun x hx =>
      hperm.mem_iff.mpr (List.mem_cons_of_mem _ hx)
    -- everything submitted before `op` has left `after_sync`
    have hearly : ∀ (i j : Nat) x, subm[i]? = some x → subm[j]? = some op → i < j →
        x ∈ popped ∨ x ∈ q.ahead ++ q.behind := by
      intro i j x hi hj hij
      have hot : op ∈ subm.take m := hm2.mem_iff.mp (List.mem_append_right _ hopm)
      obtain ⟨k, hk⟩ := List.mem_iff_getElem?.mp hot
      have hkm : k < m := by
        have := idx_lt hk
        simp at this; omega
      rw [List.getElem?_take_of_lt hkm] at hk
      have h1 := h.ids k op hk
      have h2 := h.ids j op hj
      rw [h1] at h2
      have h3 : k = j := by simpa using h2
      subst h3
      have hx : x ∈ subm.take m := by
        refine List.mem_iff_getElem?.mpr ⟨i, ?_⟩
        rw [List.getElem?_take_of_lt (by omega)]; exact hi
      exact List.mem_append.mp (hm2.mem_iff.mpr hx)
    refine ⟨h.ids, ⟨m, hm1, ?_⟩, h.syncing, h.head, ?_, ?_, ha, hb, ?_, ?_, ?_⟩
    · simp only
      rw [List.append_assoc]
      exact (List.Perm.append_left popped hperm.symm).trans hm2
    · intro x hx; exact h.nosync x (hsub x hx)
    · intro x hx y hy hsy i j hyi hxj
      rcases List.mem_append.mp hy with hy | hy
      · exact h.later x (hsub x hx) y hy hsy i j hyi hxj
      · have : y = op := by simpa using hy
        subst this
        rw [hopn] at hsy; cases hsy
    · right
      exact ⟨op, by simp, hopn, rfl⟩
    · intro l1 y l2 heq i j x hi hj hij hsy
      rcases snoc_split heq with ⟨l2', h1⟩ | ⟨h1, h2⟩
      · exact h.barrier l1 y l2' h1 i j x hi hj hij hsy
      · subst h1; subst h2
        have hsx : x.cmd.isSync = true := by
          rcases hsy with h3 | h3
          · exact h3
          · rw [hopn] at h3; cases h3
        rcases hearly i j x hi hj hij with h3 | h3
        · exact h3
        · have := h.nosync x h3
          rw [hsx] at this; cases this
    · intro l1 y l2 heq i j x hi hj hij hsx hsy hl
      rcases snoc_split heq with ⟨l2', h1⟩ | ⟨h1, h2⟩
      · exact h.clook l1 y l2' h1 i j x hi hj hij hsx hsy hl
      · subst h1; subst h2
        rcases hearly i j x hi hj hij with h3 | h3
        · exact Or.inl h3
        · exact Or.inr (hc x h3 hl)
  cases hp with
  | ahead ht =>
    obtain ⟨hmem, htop⟩ := ht
    refine key (q.ahead.erase op) q.behind ?_ ?_ ?_ ?_
    · exact List.Perm.append_right q.behind (List.perm_cons_erase hmem)
    · intro x hx
      have hx' := List.mem_of_mem_erase hx
      have := htop x hx'
      simp only [BlockOp.above, not_or] at this
      exact Nat.le_of_not_lt this.1
    · intro x hx
      exact Nat.lt_of_lt_of_le (h.behindLt x hx) (h.aheadGe op hmem)
    · intro x hx hl
      rcases List.mem_append.mp hx with hx | hx
      · have := htop x hx
        simp only [BlockOp.above, not_or] at this
        exact absurd hl this.1
      · have h1 := h.behindLt x hx
        rcases h.last with h2 | ⟨c, hc1, hc2, hc3⟩
        · omega
        · exact ⟨c, hc1, hc2, by omega, by rw [hc3]; exact h.aheadGe op hmem⟩
  | behind ha ht =>
    obtain ⟨hmem, htop⟩ := ht
    refine key (q.behind.erase op) [] ?_ ?_ ?_ ?_
    · rw [ha]; simpa using List.perm_cons_erase hmem
    · intro x hx
      have hx' := List.mem_of_mem_erase hx
      have := htop x hx'
      simp only [BlockOp.above, not_or] at this
      exact Nat.le_of_not_lt this.1
    · simp
    · intro x hx hl
      rw [ha] at hx
      have := htop x (by simpa using hx)
      simp only [BlockOp.above, not_or] at this
      exact absurd hl this.1
  | @sync rest ha hb hs hf =>
    have hop : op.cmd.isSync = true := h.head op rest hf
    rw [if_pos hop]
    have hml : m < subm.length := by
      rcases Nat.lt_or_ge m subm.length with h1 | h1
      · exact h1
      · rw [List.drop_of_length_le h1] at hm1
        rw [hm1] at hf; cases hf
    have hdrop : subm[m]? = some op ∧ rest = subm.drop (m + 1) := by
      rw [hm1, List.drop_eq_getElem_cons hml] at hf
      simp only [List.cons.injEq] at hf
      exact ⟨by rw [List.getElem?_eq_getElem hml, hf.1], hf.2.symm⟩
    have hpp : popped.Perm (subm.take m) := by
      rw [ha, hb] at hm2; simpa using hm2
    obtain ⟨mv, lf, h1, h2, h3, h4, h5, h6, h7, h8, h9⟩ :=
      drain_spec rest { q with afterSync := rest, syncing := false } rfl
    have h6' : ((drain rest { q with afterSync := rest, syncing := false }).ahead ++
        (drain rest { q with afterSync := rest, syncing := false }).behind).Perm mv := by
      simpa [ha, hb] using h6
    have hopid : op.senders = [m] := h.ids m op hdrop.1
    have hlen : mv.length + lf.length = subm.length - (m + 1) := by
      have := congrArg List.length h1
      rw [hdrop.2] at this
      simp at this; omega
    have hmvlf : subm.drop (m + 1) = mv ++ lf := by rw [← hdrop.2]; exact h1
    have htake : subm.take (m + 1 + mv.length) = subm.take m ++ op :: mv := by
      have e1 : subm.take (m + 1 + mv.length) = subm.take (m + 1) ++ (subm.drop (m + 1)).take mv.length := by
        rw [List.take_add]
      rw [e1, hmvlf, List.take_left, List.take_succ_eq_append_getElem hml]
      have : subm[m] = op := by
        have := hdrop.1
        rw [List.getElem?_eq_getElem hml] at this
        simpa using this
      rw [this]; simp
    have hdrop2 : lf = subm.drop (m + 1 + mv.length) := by
      rw [← List.drop_drop, hmvlf]; simp
    refine ⟨h.ids, ⟨m + 1 + mv.length, ?_, ?_⟩, ?_, ?_, ?_, ?_, ?_, ?_, ?_, ?_, ?_⟩
    · rw [h2]; exact hdrop2
    · rw [htake, List.append_assoc, List.singleton_append]
      exact List.Perm.append hpp (List.Perm.cons op h6')
    · rw [h2]; exact h3
    · intro o r he; rw [h2] at he; exact h4 o r he
    · intro x hx; exact h5 x (h6'.mem_iff.mp hx)
    · intro x hx y hy hsy i j hyi hxj
      have hxm := h6'.mem_iff.mp hx
      -- `x` was behind the sync
      obtain ⟨k, hk⟩ := List.mem_iff_getElem?.mp hxm
      have hkx : subm[m + 1 + k]? = some x := by
        have hkl := idx_lt hk
        have : (subm.drop (m + 1))[k]? = some x := by
          rw [hmvlf, List.getElem?_append_left hkl]; exact hk
        rw [List.getElem?_drop] at this
        exact this
      have h10 := h.ids _ x hkx
      rw [h10] at hxj
      have hj : m + 1 + k = j := by simpa using hxj
      rcases List.mem_append.mp hy with hy | hy
      · have hyt := hpp.mem_iff.mp hy
        obtain ⟨n, hn⟩ := List.mem_iff_getElem?.mp hyt
        have hnm : n < m := by
          have := idx_lt hn
          simp at this; omega
        rw [List.getElem?_take_of_lt hnm] at hn
        have := h.ids n y hn
        rw [this] at hyi
        have : n = i := by simpa using hyi
        omega
      · have : y = op := by simpa using hy
        subst this
        rw [hopid] at hyi
        have : m = i := by simpa using hyi
        omega
    · rw [h7]; exact h8 (by simp [ha])
    · rw [h7]; exact h9 (by simp [hb])
    · rw [h7]
      rcases h.last with h10 | ⟨c, hc1, hc2, hc3⟩
      · exact Or.inl h10
      · exact Or.inr ⟨c, List.mem_append_left _ hc1, hc2, hc3⟩
    · intro l1 y l2 heq i j x hi hj hij hsy
      rcases snoc_split heq with ⟨l2', h10⟩ | ⟨h10, h11⟩
      · exact h.barrier l1 y l2' h10 i j x hi hj hij hsy
      · subst h10; subst h11
        have h12 := h.ids j y hj
        rw [hopid] at h12
        have hjm : m = j := by simpa using h12
        refine hpp.mem_iff.mpr (List.mem_iff_getElem?.mpr ⟨i, ?_⟩)
        rw [List.getElem?_take_of_lt (by omega)]; exact hi
    · intro l1 y l2 heq i j x hi hj hij hsx hsy hl
      rcases snoc_split heq with ⟨l2', h10⟩ | ⟨h10, h11⟩
      · exact h.clook l1 y l2' h10 i j x hi hj hij hsx hsy hl
      · subst h11
        rw [hop] at hsy; cases hsy

/-- The merging loop keeps the invariant; it only appends to the parts. -/
theorem Gather.spec {iovMax q io q' io'} (hg : Gather iovMax q io q' io') :
    ∀ {subm popped}, QInv q subm popped →
    ∃ more, io'.parts = io.parts ++ more ∧ QInv q' subm (popped ++ more) := by
  induction hg with
  | none h => intro subm popped hq; exact ⟨[], by simp, by simpa using hq⟩
  | stop h hc => intro subm popped hq; exact ⟨[], by simp, by simpa using hq⟩
  | @more q io op2 q1 q2 io2 h hc hp hg ih =>
    intro subm popped hq
    obtain ⟨mr, h1, h2⟩ := ih (hq.pop hp)
    exact ⟨op2 :: mr, by rw [h1]; simp, by simpa using h2⟩

/-- The heads seen by `peek_op` and `pop_op` agree, so the `unwrap` in the merging
loop cannot fail. -/
theorem QInv.pop_of_peek {q subm popped op} (h : QInv q subm popped) (hp : Peek q op) :
    ∃ q', Pop q op q' := by
  cases hp with
  | ahead ht => exact ⟨_, .ahead ht⟩
  | behind ha ht => exact ⟨_, .behind ha ht⟩
  | sync ha hb hf =>
    refine ⟨_, .sync ha hb ?_ hf⟩
    rw [h.syncing, hf]; rfl

theorem QInv.no_panic {q subm popped} (h : QInv q subm popped) : ¬ PopPanics q := by
  rintro ⟨_, _, hs, hf⟩
  rw [h.syncing, hf] at hs
  simp at hs

end Verif.Sched
